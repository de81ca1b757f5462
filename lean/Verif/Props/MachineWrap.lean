import Verif.Props.MachinePow
import Verif.Props.MachineFixed
import Mathlib.Data.ZMod.Basic

/-!
# C81: machine integers in a build without overflow checks

`Arith.machine false t` is the integer type `t` in a build without overflow checks (a release build): every
result is reduced modulo `2 ^ bits`.  C57 covers the dense type; here are the powers of the dense type, the
sparse type and the fixed-size types.
-/

open Polynomial

namespace Rustnomial

section
variable (t : IntTy)

/-! ### Reduction modulo `2 ^ bits` -/

theorem wrap_eq_iff (a b : Int) : t.wrap a = t.wrap b ↔ (a : ZMod (2 ^ t.bits)) = b := by
  rw [ZMod.intCast_eq_intCast_iff]
  push_cast
  exact ⟨fun h => (t.wrap_modEq a).symm.trans (h ▸ t.wrap_modEq b), fun h => t.wrap_congr h⟩

theorem cast_wrap (a : Int) : ((t.wrap a : Int) : ZMod (2 ^ t.bits)) = a := by
  rw [ZMod.intCast_eq_intCast_iff]
  push_cast
  exact t.wrap_modEq a

/-- Reduction of the coefficients modulo `2 ^ bits`. -/
noncomputable def red : ℤ[X] →+* (ZMod (2 ^ t.bits))[X] := mapRingHom (Int.castRingHom _)

theorem red_eq_iff (P Q : ℤ[X]) : red t P = red t Q ↔ ∀ d, t.wrap (P.coeff d) = t.wrap (Q.coeff d) := by
  simp [red, Polynomial.ext_iff, wrap_eq_iff]

/-- `r` holds values of type `t` congruent to the coefficients of `P` modulo `2 ^ bits`. -/
def IsWrapOfS (r : Sparse Int) (P : ℤ[X]) : Prop :=
  (∀ e ∈ r.terms.entries, t.InRange e.2) ∧ ∀ d, (entriesPoly r.terms.entries).coeff d = t.wrap (P.coeff d)

theorem IsWrapOfS.red_eq {r : Sparse Int} {P : ℤ[X]} (h : IsWrapOfS t r P) : red t (entriesPoly r.terms.entries) = red t P := by
  rw [red_eq_iff]
  intro d
  rw [h.2 d, wrap_eq_iff, cast_wrap]

theorem IsWrapOf.red_eq {r : Poly Int} {P : ℤ[X]} (h : IsWrapOf t r P) : red t (descPoly r.terms) = red t P := by
  rw [red_eq_iff]
  intro d
  rw [h.2 d, wrap_eq_iff, cast_wrap]

theorem IsWrapOfS.congr {r : Sparse Int} {P Q : ℤ[X]} (h : IsWrapOfS t r P) (e : red t P = red t Q) : IsWrapOfS t r Q :=
  ⟨h.1, fun d => (h.2 d).trans ((red_eq_iff t P Q).1 e d)⟩

theorem IsWrapOf.congr {r : Poly Int} {P Q : ℤ[X]} (h : IsWrapOf t r P) (e : red t P = red t Q) : IsWrapOf t r Q :=
  ⟨h.1, fun d => (h.2 d).trans ((red_eq_iff t P Q).1 e d)⟩

/-! ### Maps with reduced values -/

theorem get_mapVals (f : Int → Int) (m : BMap Int) (k : Nat) : (m.mapVals f).get k = (m.get k).map f := by
  show BMap.getList k (m.entries.map fun e => (e.1, f e.2)) = (BMap.getList k m.entries).map f
  induction m.entries with
  | nil => rfl
  | cons e l ih =>
    simp only [List.map_cons, BMap.getList]
    split
    · rfl
    · exact ih

theorem insert_mapVals (f : Int → Int) (m : BMap Int) (k : Nat) (v : Int) :
    (m.mapVals f).insert k (f v) = (m.insert k v).mapVals f := by
  have : ∀ l : List (Nat × Int), BMap.insertList k (f v) (l.map fun e => (e.1, f e.2)) =
      (BMap.insertList k v l).map fun e => (e.1, f e.2) := by
    intro l
    induction l with
    | nil => rfl
    | cons e l ih =>
      simp only [List.map_cons, BMap.insertList]
      split
      · rfl
      · split
        · rfl
        · rw [ih]; rfl
  simp only [BMap.insert, BMap.mapVals, BMap.mk.injEq]
  exact this m.entries

theorem upsertM_mapVals {m : BMap Int} {k : Nat} {v : Res Int} {w : Int} {f : Int → Res Int} {g : Int → Int}
    (hv : v = .ok (t.wrap w)) (hf : ∀ x, f (t.wrap x) = .ok (t.wrap (g x))) :
    (m.mapVals t.wrap).upsertM k v f = .ok ((m.upsert k w g).mapVals t.wrap) := by
  unfold BMap.upsertM BMap.upsert
  rw [get_mapVals]
  cases m.get k with
  | none => simp only [Option.map_none, hv, Res.ok_bind, insert_mapVals]
  | some x => simp only [Option.map_some, hf, Res.ok_bind, insert_mapVals]

theorem foldlM_sim {α β : Type} {φ : β → β} {f : β → α → Res β} {g : β → α → β} (l : List α)
    (h : ∀ b, ∀ a ∈ l, f (φ b) a = .ok (φ (g b a))) (b : β) : l.foldlM f (φ b) = .ok (φ (l.foldl g b)) := by
  induction l generalizing b with
  | nil => rfl
  | cons a l ih =>
    rw [List.foldlM_cons, h b a (by simp), Res.ok_bind, List.foldl_cons]
    exact ih (fun b a ha => h b a (by simp [ha])) _

theorem mapVals_wrap_eq (hb : 1 ≤ t.bits) {m : BMap Int} (h : ∀ e ∈ m.entries, t.InRange e.2) : m.mapVals t.wrap = m := by
  have : m.entries.map (fun e => (e.1, t.wrap e.2)) = m.entries := by
    conv_rhs => rw [← List.map_id m.entries]
    exact List.map_congr_left (fun e he => by rw [t.wrap_of_inRange hb _ (h e he)]; rfl)
  cases m
  simp only [BMap.mapVals, BMap.mk.injEq]
  exact this

theorem isWrapOfS_mapVals (hb : 1 ≤ t.bits) (m : BMap Int) : IsWrapOfS t ⟨m.mapVals t.wrap⟩ (entriesPoly m.entries) := by
  refine ⟨?_, fun d => ?_⟩
  · intro e he
    obtain ⟨e', _, rfl⟩ := List.mem_map.1 he
    exact t.wrap_inRange hb _
  · rw [coeff_mapPoly, coeff_mapPoly]
    show ((m.mapVals t.wrap).get d).getD 0 = _
    rw [get_mapVals]
    cases m.get d with
    | none => simp [t.wrap_zero]
    | some x => rfl

theorem mapVals_empty (f : Int → Int) : (BMap.empty : BMap Int).mapVals f = .empty := rfl

/-! ### Sparse polynomials -/

/-- C81: without overflow checks negation and multiplication by a scalar of a sparse polynomial return, with
every coefficient reduced to the type. -/
theorem C81_sparse_scalar (hb : 1 ≤ t.bits) (p : Sparse Int) (c : Int) :
    (∃ r, p.negM (.machine false t) = .ok r ∧ IsWrapOfS t r (-entriesPoly p.terms.entries)) ∧
    (∃ r, p.mulScalarM (.machine false t) c = .ok r ∧ IsWrapOfS t r (entriesPoly p.terms.entries * C c)) ∧
    (∃ r, p.mulAssignScalarM (.machine false t) c = .ok r ∧ IsWrapOfS t r (entriesPoly p.terms.entries * C c)) := by
  have key : ∀ (g : Int → Int), g 0 = 0 → ∀ (m0 : BMap Int), (m0 = .empty ∨ m0 = p.terms) → ∃ r : BMap Int,
      p.terms.entries.foldlM (fun m e => Res.ok (t.wrap (g e.2)) >>= fun v => Res.ok (m.insert e.1 v)) m0 = .ok r ∧
      ∀ d, (entriesPoly r.entries).coeff d = t.wrap (g ((entriesPoly p.terms.entries).coeff d)) := by
    intro g g0 m0 hm
    refine ⟨p.terms.entries.foldl (fun m e => m.insert e.1 (t.wrap (g e.2))) m0, ?_, fun d => ?_⟩
    · exact foldlM_sim (φ := id) _ (fun b a _ => rfl) m0
    · rw [coeff_mapPoly, coeff_mapPoly, get_foldl_vals _ _ (fun x => t.wrap (g x)) hm]
      cases p.terms.get d <;> simp [g0, t.wrap_zero]
  have fin : ∀ (r : Sparse Int) (P : ℤ[X]), (∀ d, (entriesPoly r.terms.entries).coeff d = t.wrap (P.coeff d)) → IsWrapOfS t r P :=
    fun r P h => ⟨(inRange_mapPoly t r.terms).2 fun d => by rw [h d]; exact t.wrap_inRange hb _, h⟩
  obtain ⟨r1, h1, e1⟩ := key (fun x => -x) neg_zero .empty (.inl rfl)
  obtain ⟨r2, h2, e2⟩ := key (fun x => x * c) (zero_mul c) .empty (.inl rfl)
  obtain ⟨r3, h3, e3⟩ := key (fun x => x * c) (zero_mul c) p.terms (.inr rfl)
  refine ⟨⟨⟨r1⟩, congrArg (· >>= fun m => Res.ok (Sparse.new m)) h1, fin _ _ ?_⟩,
    ⟨⟨r2⟩, congrArg (· >>= fun m => Res.ok (Sparse.new m)) h2, fin _ _ ?_⟩,
    ⟨⟨r3⟩, congrArg (· >>= fun m => Res.ok (Sparse.mk m)) h3, fin _ _ ?_⟩⟩
  · intro d; rw [coeff_neg]; exact e1 d
  · intro d; rw [coeff_mul_C]; exact e2 d
  · intro d; rw [coeff_mul_C]; exact e3 d

/-- C81: without overflow checks sparse addition and subtraction, `add_term`, and subtraction of a dense
polynomial return, with every coefficient reduced to the type. -/
theorem C81_sparse_add_sub (hb : 1 ≤ t.bits) (p q : Sparse Int) (b : Poly Int) (c : Int) (k : Nat)
    (hp : ∀ e ∈ p.terms.entries, t.InRange e.2) (hq : ∀ e ∈ q.terms.entries, t.InRange e.2) (hc : t.InRange c) :
    (∃ r, p.addM (.machine false t) q = .ok r ∧
      IsWrapOfS t r (entriesPoly p.terms.entries + entriesPoly q.terms.entries)) ∧
    (∃ r, p.addAssignM (.machine false t) q = .ok r ∧
      IsWrapOfS t r (entriesPoly p.terms.entries + entriesPoly q.terms.entries)) ∧
    (∃ r, p.subM (.machine false t) q = .ok r ∧
      IsWrapOfS t r (entriesPoly p.terms.entries - entriesPoly q.terms.entries)) ∧
    (∃ r, p.subDenseM (.machine false t) b = .ok r ∧
      IsWrapOfS t r (entriesPoly p.terms.entries - descPoly b.terms)) ∧
    (∃ r, p.addTermM (.machine false t) c k = .ok r ∧
      IsWrapOfS t r (entriesPoly p.terms.entries + C c * X ^ k)) := by
  have hpw := mapVals_wrap_eq t hb hp
  have hqw := mapVals_wrap_eq t hb hq
  have addl : ∀ (l m : BMap Int), (∀ e ∈ l.entries, t.InRange e.2) →
      l.entries.foldlM (fun m e => m.upsertM e.1 (.ok e.2) (fun x => (Arith.machine false t).add x e.2)) (m.mapVals t.wrap) =
      .ok ((l.entries.foldl (fun m e => m.upsert e.1 e.2 (· + e.2)) m).mapVals t.wrap) := by
    intro l m hl
    refine foldlM_sim (φ := fun m => m.mapVals t.wrap)
      (f := fun m (e : Nat × Int) => m.upsertM e.1 (.ok e.2) (fun x => (Arith.machine false t).add x e.2))
      (g := fun m e => m.upsert e.1 e.2 (· + e.2)) _ (fun m e he => upsertM_mapVals t ?_ fun x => ?_) m
    · rw [t.wrap_of_inRange hb _ (hl e he)]
    · exact congrArg Res.ok (wrap_add_left t _ _)
  refine ⟨?_, ?_, ?_, ?_, ?_⟩
  · have e := (C25_sparse_add p q).1
    have e0 : ∀ l : BMap Int, (∀ e ∈ l.entries, t.InRange e.2) →
        (l.entries.foldl (fun m e => m.insert e.1 e.2) BMap.empty).mapVals t.wrap =
        l.entries.foldl (fun m e => m.insert e.1 e.2) BMap.empty := by
      intro l hl
      refine mapVals_wrap_eq t hb ((inRange_mapPoly _ _).2 fun d => ?_)
      rw [mapPoly_foldl_insert l.entries l.keys_nodup .empty (by simp), mapPoly_empty, zero_add]
      exact (inRange_mapPoly _ _).1 hl d
    have h := addl p.terms (q.terms.entries.foldl (fun m e => m.insert e.1 e.2) BMap.empty) hp
    rw [e0 q.terms hq] at h
    refine ⟨_, congrArg (· >>= fun m => Res.ok (Sparse.mk m)) h, ?_⟩
    rw [← e]
    exact isWrapOfS_mapVals t hb _
  · have e := (C25_sparse_add p q).2
    have h := addl q.terms p.terms hq
    rw [hpw] at h
    refine ⟨_, congrArg (· >>= fun m => Res.ok (Sparse.mk m)) h, ?_⟩
    rw [← e]
    exact isWrapOfS_mapVals t hb _
  · have e := C25_sparse_sub p q
    have h := foldlM_sim (φ := fun m => m.mapVals t.wrap)
      (f := fun m e => m.upsertM e.1 ((Arith.machine false t).neg e.2) (fun l => (Arith.machine false t).sub l e.2))
      (g := fun m e => m.upsert e.1 (-e.2) (· - e.2)) q.terms.entries
      (fun m e _ => upsertM_mapVals t (w := -e.2) (g := (· - e.2))
        (f := fun l => (Arith.machine false t).sub l e.2) rfl fun x => congrArg Res.ok (wrap_sub_left t x e.2)) p.terms
    rw [hpw] at h
    refine ⟨_, congrArg (· >>= fun m => Res.ok (Sparse.mk m)) h, ?_⟩
    rw [← e]
    exact isWrapOfS_mapVals t hb _
  · have e := C25_sparse_sub_dense p b
    have h := foldlM_sim (φ := fun m => m.mapVals t.wrap)
      (f := fun m e => m.upsertM e.2 ((Arith.machine false t).neg e.1) (fun l => (Arith.machine false t).sub l e.1))
      (g := fun m e => m.upsert e.2 (-e.1) (· - e.1)) b.orderedTermIter
      (fun m e _ => upsertM_mapVals t (w := -e.1) (g := (· - e.1))
        (f := fun l => (Arith.machine false t).sub l e.1) rfl fun x => congrArg Res.ok (wrap_sub_left t x e.1)) p.terms
    rw [hpw] at h
    refine ⟨_, congrArg (· >>= fun m => Res.ok (Sparse.mk m)) h, ?_⟩
    rw [← e]
    exact isWrapOfS_mapVals t hb _
  · unfold Sparse.addTermM
    by_cases h0 : c = 0
    · subst h0
      refine ⟨p, by simp, ?_⟩
      have := isWrapOfS_mapVals t hb p.terms
      rw [hpw] at this
      simpa using this
    · rw [if_neg h0]
      have h := upsertM_mapVals t (m := p.terms) (k := k) (v := .ok c) (w := c) (f := fun x => (Arith.machine false t).add x c)
        (g := (· + c)) (by rw [t.wrap_of_inRange hb _ hc]) (fun x => congrArg Res.ok (wrap_add_left t _ _))
      rw [hpw] at h
      refine ⟨_, congrArg (· >>= fun m => Res.ok (Sparse.mk m)) h, ?_⟩
      rw [← mapPoly_upsert_add _ _ _ _ (fun _ => rfl)]
      exact isWrapOfS_mapVals t hb _

theorem wrap_mapMulM (l r : BMap Int) : mapMulM (.machine false t) l r = .ok ((mapMul l r).mapVals t.wrap) := by
  unfold mapMulM mapMul
  refine foldlM_sim (φ := fun m : BMap Int => m.mapVals t.wrap) (b := BMap.empty) r.entries (fun m e _ => ?_)
  · by_cases h : e.2 = 0
    · simp [h]
    · simp only [h, if_false, isZero_eq_true]
      unfold mapMulInnerM mapMulInner
      refine foldlM_sim (φ := fun m => m.mapVals t.wrap) (f := mapMulStepM (.machine false t) e.1 e.2)
        (g := fun terms e' => terms.upsert (e.1 + e'.1) (e.2 * e'.2) (· + e.2 * e'.2)) l.entries (fun m e' _ => upsertM_mapVals t rfl fun x => ?_) m
      show Res.ok (t.wrap (t.wrap x + t.wrap (e.2 * e'.2))) = _
      rw [wrap_add_left, wrap_add_right]

/-- C81: without overflow checks sparse multiplication returns, with every coefficient of the product reduced to
the type. -/
theorem C81_sparse_mul (hb : 1 ≤ t.bits) (p q : Sparse Int) :
    ∃ r, p.mulM (.machine false t) q = .ok r ∧ IsWrapOfS t r (entriesPoly p.terms.entries * entriesPoly q.terms.entries) := by
  refine ⟨_, congrArg (· >>= fun m => Res.ok (Sparse.mk m)) (wrap_mapMulM t p.terms q.terms), ?_⟩
  have e := C26_sparse_mul p q
  rw [← e]
  exact isWrapOfS_mapVals t hb _

/-- C81: without overflow checks `pow` of a sparse polynomial returns, with every coefficient of the power
reduced to the type. -/
theorem C81_sparse_pow (hb : 1 ≤ t.bits) (h1 : t.InRange 1) (p : Sparse Int) (n : Nat)
    (hp : ∀ e ∈ p.terms.entries, t.InRange e.2) :
    ∃ r, p.powM (.machine false t) n = .ok r ∧ IsWrapOfS t r (entriesPoly p.terms.entries ^ n) := by
  induction n using Nat.strong_induction_on generalizing p with
  | _ n ih =>
    rw [Sparse.powM.eq_def]
    by_cases e0 : n = 0
    · subst e0
      refine ⟨_, if_pos rfl, ?_⟩
      have h : entriesPoly (BMap.empty.insert 0 (1 : Int)).entries = 1 := by
        rw [mapPoly_insert_fresh _ _ _ rfl, mapPoly_empty]; simp
      have := isWrapOfS_mapVals t hb (BMap.empty.insert 0 (1 : Int))
      rw [mapVals_wrap_eq t hb (by intro e he; simp [BMap.insert, BMap.insertList, BMap.empty] at he; subst he; exact h1), h] at this
      simpa using this
    rw [if_neg e0]
    by_cases e1 : n = 1
    · subst e1
      refine ⟨_, if_pos rfl, ?_⟩
      have := isWrapOfS_mapVals t hb p.terms
      rw [mapVals_wrap_eq t hb hp] at this
      simpa [Sparse.new] using this
    rw [if_neg e1]
    by_cases e2 : n = 2
    · subst e2
      rw [if_pos rfl, sq]
      exact C81_sparse_mul t hb p p
    rw [if_neg e2]
    by_cases hev : n % 2 = 0
    · rw [if_pos hev]
      obtain ⟨h, hh, hw⟩ := ih (n / 2) (by omega) p hp
      obtain ⟨r, hr, hrw⟩ := ih 2 (by omega) h hw.1
      refine ⟨r, by rw [hh, Res.ok_bind, hr], hrw.congr t ?_⟩
      rw [map_pow, hw.red_eq, map_pow, map_pow, ← pow_mul]
      congr 1; omega
    · rw [if_neg hev]
      obtain ⟨h, hh, hw⟩ := ih (n - 1) (by omega) p hp
      obtain ⟨r, hr, hrw⟩ := C81_sparse_mul t hb p h
      refine ⟨r, by rw [hh, Res.ok_bind, hr], hrw.congr t ?_⟩
      rw [map_mul, hw.red_eq, map_pow, map_pow, ← pow_succ']
      congr 1; omega

/-- C81: without overflow checks `eval` of a sparse polynomial returns the exact value reduced to the type, for
degrees below `2 ^ 32` (beyond, `exp as u32` truncates the exponent: C06). -/
theorem C81_sparse_eval (p : Sparse Int) (x : Int) (h32 : ∀ e ∈ p.terms.entries, e.1 < 2 ^ 32) :
    p.evalM (.machine false t) x = .ok (t.wrap ((entriesPoly p.terms.entries).eval x)) := by
  have h := foldlM_sim (φ := t.wrap) (b := 0) (f := fun sum (e : Nat × Int) => do
      let y ← (Arith2.machine false t).upow x e.1
      let y ← (Arith2.machine false t).mul e.2 y
      (Arith2.machine false t).add sum y) (g := fun sum e => sum + e.2 * x ^ e.1) p.terms.entries (fun s e he => by
    show Res.ok (t.wrap (t.wrap s + t.wrap (e.2 * t.wrap (x ^ (e.1 % 2 ^ 32))))) = _
    rw [wrap_add_left, wrap_add_right, Nat.mod_eq_of_lt (h32 e he)]
    congr 1
    rw [wrap_eq_iff]
    push_cast
    rw [cast_wrap]
    push_cast
    rfl)
  rw [t.wrap_zero] at h
  unfold Sparse.evalM
  rw [h]
  congr 2
  have : ∀ (l : List (Nat × Int)) (s : Int), l.foldl (fun sum e => sum + e.2 * x ^ e.1) s = s + (entriesPoly l).eval x := by
    intro l
    induction l with
    | nil => simp
    | cons e l ih => intro s; rw [List.foldl_cons, ih]; simp; ring
  simp [this]

/-- C81: without overflow checks, on a machine with `uw`-bit `usize`, `derivative` of a sparse polynomial returns
exactly when the type represents the degrees of the non-constant terms, with every coefficient of the derivative
reduced to the type; otherwise it panics. -/
theorem C81_sparse_derivative (uw : Nat) (hb : 1 ≤ t.bits) (p : Sparse Int) (hd : ∀ e ∈ p.terms.entries, e.1 < 2 ^ uw) :
    ((∀ d, d ≠ 0 → (entriesPoly p.terms.entries).coeff d ≠ 0 → t.InRange d) →
      ∃ r, p.derivativeM (.machine false t) (tryFromUsizeExactInt uw t) = .ok r ∧
        IsWrapOfS t r (derivative (entriesPoly p.terms.entries))) ∧
    ((¬ ∀ d, d ≠ 0 → (entriesPoly p.terms.entries).coeff d ≠ 0 → t.InRange d) →
      p.derivativeM (.machine false t) (tryFromUsizeExactInt uw t) = .panic) := by
  set step : BMap Int → Nat × Int → BMap Int := fun terms e =>
    if e.2 ≠ 0 ∧ e.1 ≠ 0 then terms.insert (e.1 - 1) (e.2 * e.1) else terms with hstep
  have hu : ∀ e ∈ p.terms.entries, tryFromUsizeExactInt uw t e.1 = if t.InRange e.1 then some (e.1 : Int) else none :=
    fun e he => tryFromUsizeContInt_eq uw t hb _ (hd e he)
  have hcond : (∀ d, d ≠ 0 → (entriesPoly p.terms.entries).coeff d ≠ 0 → t.InRange d) ↔
      ∀ e ∈ p.terms.entries, e.2 ≠ 0 ∧ e.1 ≠ 0 → t.InRange e.1 := by
    rw [forall_entries p.terms (fun k v => v ≠ 0 ∧ k ≠ 0 → t.InRange k)]
    constructor
    · intro H k v hk hv
      exact H k hv.2 (by rw [coeff_mapPoly, hk]; exact hv.1)
    · intro H d hd0 hc
      rw [coeff_mapPoly] at hc
      cases hg : p.terms.get d with
      | none => rw [hg] at hc; exact absurd rfl hc
      | some v => rw [hg] at hc; exact H d v hg ⟨hc, hd0⟩
  rw [hcond]
  unfold Sparse.derivativeM
  have hgen := chk_foldlM' (g := fun terms e => if e.2 ≠ 0 ∧ e.1 ≠ 0 then terms.insert (e.1 - 1) (t.wrap (e.2 * e.1)) else terms)
    (f := fun (terms : BMap Int) (e : Nat × Int) =>
      if e.2 ≠ 0 ∧ e.1 ≠ 0 then
        match tryFromUsizeExactInt uw t e.1 with
        | none => Res.panic
        | some d => do
          let v ← (Arith.machine false t).mul e.2 d
          .ok (terms.insert (e.1 - 1) v)
      else .ok terms) p.terms.entries (fun e => e.2 ≠ 0 ∧ e.1 ≠ 0 → t.InRange e.1) .empty (fun l1 e l2 he => by
        by_cases hc : e.2 ≠ 0 ∧ e.1 ≠ 0
        · simp only [if_pos hc]
          rw [hu e (by rw [he]; simp)]
          by_cases hr : t.InRange e.1
          · simp only [if_pos hr]
            exact ⟨fun _ => rfl, fun H => absurd (fun _ => hr) H⟩
          · simp only [if_neg hr]
            exact ⟨fun H => absurd (H hc) hr, fun _ => rfl⟩
        · simp only [if_neg hc]
          exact (Chk.ok _).of_iff (by tauto))
  have hsim : p.terms.entries.foldl (fun terms e =>
      if e.2 ≠ 0 ∧ e.1 ≠ 0 then terms.insert (e.1 - 1) (t.wrap (e.2 * e.1)) else terms) .empty =
      (p.terms.entries.foldl step .empty).mapVals t.wrap := by
    have := foldlM_sim (φ := fun m : BMap Int => m.mapVals t.wrap) (b := BMap.empty) (g := step)
      (f := fun terms e => Res.ok (if e.2 ≠ 0 ∧ e.1 ≠ 0 then terms.insert (e.1 - 1) (t.wrap (e.2 * e.1)) else terms))
      p.terms.entries (fun m e _ => by
        simp only [hstep]
        split_ifs
        · rw [insert_mapVals]
        · rfl)
    rw [mapVals_empty] at this
    have h2 := foldlM_sim (φ := id) (b := BMap.empty)
      (f := fun terms e => Res.ok (if e.2 ≠ 0 ∧ e.1 ≠ 0 then terms.insert (e.1 - 1) (t.wrap (e.2 * e.1)) else terms))
      (g := fun terms e => if e.2 ≠ 0 ∧ e.1 ≠ 0 then terms.insert (e.1 - 1) (t.wrap (e.2 * e.1)) else terms)
      p.terms.entries (fun m e _ => rfl)
    exact Res.ok.inj (h2.symm.trans this)
  rw [hsim] at hgen
  have e : p.derivative = .ok ⟨p.terms.entries.foldl step .empty⟩ := by
    rw [← Sparse.derivativeM_exact]
    unfold Sparse.derivativeM
    rw [foldlM_ok (step' := step)]
    · rfl
    · intro e _ m
      simp only [hstep]
      split_ifs <;> rfl
  obtain ⟨r, hr, hr'⟩ := (C17_sparse_derivative p).2 (fun d _ _ => by simp [tryFromExact])
  obtain rfl := Res.ok.inj (hr.symm.trans e)
  refine ⟨fun H => ⟨_, (hgen.map Sparse.mk).1 H, ?_⟩, (hgen.map Sparse.mk).2⟩
  rw [← hr']
  exact isWrapOfS_mapVals t hb _

/-! ### Dense polynomials -/

/-- C81: without overflow checks `pow` of a dense polynomial of values of the type panics exactly when the exponent
is at least 2 and every coefficient of the power with half the exponent is divisible by `2 ^ bits` (the zero
polynomial squared, and every nilpotent base with a large exponent); otherwise the result is the power with every
coefficient reduced to the type. -/
theorem C81_dense_pow (hb : 1 ≤ t.bits) (h1 : t.InRange 1) (p : Poly Int) (n : Nat) (hp : AllIn t p.terms) :
    (2 ≤ n ∧ (∀ d, (2 : ℤ) ^ t.bits ∣ (descPoly p.terms ^ (n / 2)).coeff d) → p.powM (.machine false t) n = .panic) ∧
    (¬ (2 ≤ n ∧ ∀ d, (2 : ℤ) ^ t.bits ∣ (descPoly p.terms ^ (n / 2)).coeff d) →
      ∃ r, p.powM (.machine false t) n = .ok r ∧ IsWrapOf t r (descPoly p.terms ^ n)) := by
  have hz : ∀ P : ℤ[X], (∀ d, (2 : ℤ) ^ t.bits ∣ P.coeff d) ↔ red t P = 0 := by
    intro P
    simp only [red, Polynomial.ext_iff, coe_mapRingHom, coeff_map, coeff_zero, eq_intCast,
      ZMod.intCast_zmod_eq_zero_iff_dvd]
    push_cast
    rfl
  have hself : ∀ q : Poly Int, AllIn t q.terms → IsWrapOf t q (descPoly q.terms) := fun q hq =>
    ⟨hq, fun d => (t.wrap_of_inRange hb _ ((inRange_descPoly t q.terms).1 hq d)).symm⟩
  have hzero : ∀ (q : Poly Int) (P : ℤ[X]), IsWrapOf t q P → (descPoly q.terms = 0 ↔ red t P = 0) := by
    intro q P hq
    constructor
    · intro h
      rw [← hq.red_eq, h, map_zero]
    · intro h
      ext d
      have := (red_eq_iff t P 0).1 (h.trans (map_zero _).symm) d
      rw [hq.2 d, this, coeff_zero, t.wrap_zero]
  have sq0 : ∀ q : Poly Int, descPoly q.terms = 0 → q.mulRefM (.machine false t) q = .panic := by
    intro q h0
    have e := (descPoly_eq_zero_iff q.terms).1 h0
    unfold Poly.mulRefM sliceMulM
    simp [sliceFrom, firstNonzeroIndex_le, drop_firstNonzeroIndex, e, usub]
  have two : ∀ q : Poly Int, q.powM (.machine false t) 2 = q.mulRefM (.machine false t) q := by
    intro q
    rw [Poly.powM.eq_def]
    rfl
  rw [hz]
  induction n using Nat.strong_induction_on with
  | _ n ih =>
    rw [Poly.powM.eq_def]
    by_cases e0 : n = 0
    · subst e0
      refine ⟨fun h => by omega, fun _ => ⟨_, if_pos rfl, ?_⟩⟩
      have := hself ⟨[1]⟩ (by intro x hx; simp at hx; subst hx; exact h1)
      simpa [descPoly_cons] using this
    rw [if_neg e0]
    by_cases e1 : n = 1
    · subst e1
      refine ⟨fun h => by omega, fun _ => ⟨_, if_pos rfl, ?_⟩⟩
      have := hself (Poly.new p.terms) hp.new
      rw [C01_new_same_polynomial] at this
      simpa using this
    rw [if_neg e1]
    by_cases e2 : n = 2
    · subst e2
      rw [if_pos rfl]
      have e : descPoly p.terms = 0 ↔ red t (descPoly p.terms ^ (2 / 2)) = 0 := by
        have := hzero p _ (hself p hp)
        simpa using this
      refine ⟨fun h => sq0 p (e.2 h.2), fun h => ?_⟩
      rw [sq]
      exact (C57_mul t hb p p (.inl fun h0 => h ⟨le_rfl, e.1 h0⟩)).2
    rw [if_neg e2]
    by_cases hev : n % 2 = 0
    · rw [if_pos hev]
      obtain ⟨i1, i2⟩ := ih (n / 2) (by omega)
      by_cases hq : 2 ≤ n / 2 ∧ red t (descPoly p.terms ^ (n / 2 / 2)) = 0
      · have hz0 : red t (descPoly p.terms ^ (n / 2)) = 0 := by
          rw [map_pow] at hq ⊢
          exact pow_eq_zero_of_le (by omega) hq.2
        rw [i1 hq]
        exact ⟨fun _ => rfl, fun h => absurd ⟨by omega, hz0⟩ h⟩
      · obtain ⟨h, hh, hw⟩ := i2 hq
        rw [hh, Res.ok_bind, two]
        have e := hzero h _ hw
        refine ⟨fun H => sq0 h (e.2 H.2), fun H => ?_⟩
        obtain ⟨r, hr, hrw⟩ := (C57_mul t hb h h (.inl fun h0 => H ⟨by omega, e.1 h0⟩)).2
        refine ⟨r, hr, hrw.congr t ?_⟩
        rw [map_mul, hw.red_eq, ← map_mul, ← pow_add]
        congr 2; omega
    · rw [if_neg hev]
      obtain ⟨i1, i2⟩ := ih (n - 1) (by omega)
      have hn : (n - 1) / 2 = n / 2 := by omega
      rw [hn] at i1 i2
      by_cases hq : 2 ≤ n - 1 ∧ red t (descPoly p.terms ^ (n / 2)) = 0
      · rw [i1 hq]
        exact ⟨fun _ => rfl, fun h => absurd ⟨by omega, hq.2⟩ h⟩
      · obtain ⟨h, hh, hw⟩ := i2 hq
        rw [hh, Res.ok_bind]
        refine ⟨fun H => absurd ⟨by omega, H.2⟩ hq, fun H => ?_⟩
        have hp0 : descPoly p.terms ≠ 0 := by
          intro h0
          refine H ⟨by omega, ?_⟩
          rw [h0, zero_pow (by omega), map_zero]
        obtain ⟨r, hr, hrw⟩ := (C57_mul t hb p h (.inl hp0)).2
        refine ⟨r, hr, hrw.congr t ?_⟩
        rw [map_mul, hw.red_eq, ← map_mul, ← pow_succ']
        congr 2; omega

/-- C81: without overflow checks, on a machine with `uw`-bit `usize`, `derivative` of a dense polynomial returns
exactly when the type represents the degree plus one, with every coefficient of the derivative reduced to the
type; otherwise it panics. -/
theorem C81_dense_derivative (uw : Nat) (hb : 1 ≤ t.bits) (p : Poly Int) (hlen : p.terms.length < 2 ^ uw) :
    ((descPoly p.terms ≠ 0 → t.InRange ((descPoly p.terms).natDegree + 1)) →
      ∃ r, p.derivativeM (.machine false t) (tryFromUsizeContInt uw t) = .ok r ∧
        IsWrapOf t r (derivative (descPoly p.terms))) ∧
    (¬ (descPoly p.terms ≠ 0 → t.InRange ((descPoly p.terms).natDegree + 1)) →
      p.derivativeM (.machine false t) (tryFromUsizeContInt uw t) = .panic) := by
  have hfl : p.terms.length - firstNonzeroIndex p.terms = (Poly.new p.terms).terms.length := by
    rw [new_terms]; have := firstNonzeroIndex_add p.terms; omega
  have hdrop : p.terms.drop (firstNonzeroIndex p.terms) = (Poly.new p.terms).terms := by
    rw [new_terms]; exact drop_firstNonzeroIndex _
  have hpoly := C01_new_same_polynomial p.terms
  have hle : (Poly.new p.terms).terms.length < 2 ^ uw := by omega
  unfold Poly.derivativeM
  simp only [hfl, hdrop]
  rw [tryFromUsizeContInt_eq uw t hb _ hle, ← hpoly]
  cases hl : (Poly.new p.terms).terms with
  | nil =>
    have h0 : t.InRange (([] : List Int).length : Int) := by simpa using t.zero_inRange
    rw [if_pos h0]
    refine ⟨fun _ => ⟨Poly.zero, rfl, by simp [AllIn, Poly.zero], fun d => by simp [Poly.zero, t.wrap_zero]⟩,
      fun H => absurd ?_ H⟩
    simp
  | cons x xs =>
    have hx : x ≠ 0 := by
      intro hx
      rw [new_terms] at hl
      have := dropWhile_head_not hl
      simp [hx] at this
    have hne : descPoly (x :: xs) ≠ 0 := by
      intro h0
      have := descPoly_cons_degree xs hx
      rw [h0] at this; simp at this
    have hdeg : (descPoly (x :: xs)).natDegree = xs.length :=
      natDegree_eq_of_degree_eq_some (descPoly_cons_degree xs hx)
    rw [hdeg]
    obtain ⟨ini, last, he⟩ : ∃ ini last, x :: xs = ini ++ [last] :=
      ⟨_, _, (List.dropLast_append_getLast (List.cons_ne_nil x xs)).symm⟩
    have hxl : xs.length = ini.length := by
      have := congrArg List.length he; simpa using this
    have hcast : (((x :: xs).length : Nat) : Int) = (xs.length : Int) + 1 := by simp
    rw [hcast]
    have hdl : (x :: xs).dropLast = ini := by rw [he]; simp
    by_cases hin : t.InRange ((xs.length : Int) + 1)
    · rw [if_pos hin]
      refine ⟨fun _ => ?_, fun H => absurd (fun _ => hin) H⟩
      have loop : ∀ (l : List Int) (n : Int), Poly.derivLoopM (.machine false t) l (t.wrap n) =
          .ok ((Poly.derivLoop l n).map t.wrap) := by
        intro l
        induction l with
        | nil => intro n; rfl
        | cons a l ihl =>
          intro n
          unfold Poly.derivLoopM Poly.derivLoop
          show (Res.ok (t.wrap (t.wrap n - 1)) >>= fun d => Res.ok (t.wrap (a * d)) >>= fun v => _) = _
          rw [wrap_sub_left, Res.ok_bind, Res.ok_bind, ihl, Res.ok_bind]
          congr 2
          rw [wrap_eq_iff]
          push_cast
          rw [cast_wrap]
          push_cast
          ring
      have e := derivLoop_poly ini last
      rw [← he] at e
      have e' : (((ini.length + 1 : Nat) : Int)) = (xs.length : Int) + 1 := by push_cast; omega
      rw [e'] at e
      have := loop ini ((xs.length : Int) + 1)
      rw [t.wrap_of_inRange hb _ hin] at this
      simp only [hdl]
      refine ⟨_, by rw [this]; rfl, ?_⟩
      rw [← e]
      exact isWrapOf_mk t hb _
    · rw [if_neg hin]
      exact ⟨fun H => absurd (H hne) hin, fun _ => rfl⟩

/-- C81: without overflow checks `add_term` of a dense polynomial returns, with every coefficient reduced to the
type. -/
theorem C81_dense_add_term (hb : 1 ≤ t.bits) (p : Poly Int) (c : Int) (k : Nat) (hp : AllIn t p.terms) :
    ∃ r, p.addTermM (.machine false t) c k = .ok r ∧ IsWrapOf t r (descPoly p.terms + C c * X ^ k) := by
  have key : ∀ (l : List Int) (i : Nat), i < l.length → AllIn t l →
      modifyM (fun x => (Arith.machine false t).add x c) l i = .ok ((l.modify i (· + c)).map t.wrap) := by
    intro l
    induction l with
    | nil => intro i hi; simp at hi
    | cons a l ih =>
      intro i hi hl
      have hw := wrap_allIn t hb (fun x hx => hl x (List.mem_cons_of_mem a hx) : AllIn t l)
      cases i with
      | zero =>
        simp only [modifyM, List.modify_zero_cons, List.map_cons, hw]
        rfl
      | succ i =>
        simp only [modifyM, List.modify_succ_cons, List.map_cons]
        rw [ih i (by simpa using hi) (fun x hx => hl x (List.mem_cons_of_mem a hx)), Res.ok_bind,
          t.wrap_of_inRange hb a (hl a (by simp))]
  rw [← C31_dense_add_term]
  unfold Poly.addTermM Poly.addTerm
  set terms := if p.terms.length < k + 1 then List.replicate (k + 1 - p.terms.length) 0 ++ p.terms else p.terms with ht
  have hl : k + 1 ≤ terms.length := by
    rw [ht]; split_ifs <;> simp <;> omega
  have hin : AllIn t terms := by
    intro x hx
    rw [ht] at hx
    split_ifs at hx
    · rcases List.mem_append.1 hx with hx | hx
      · rw [(List.mem_replicate.1 hx).2]; exact t.zero_inRange
      · exact hp x hx
    · exact hp x hx
  dsimp only
  refine ⟨_, by rw [key _ _ (by omega) hin]; rfl, ?_⟩
  exact isWrapOf_mk t hb _

/-! ### Fixed-size polynomials -/

/-- Every coefficient of `P` is that of `Q` reduced to the type. -/
def WrapPoly (P Q : ℤ[X]) : Prop := ∀ d, P.coeff d = t.wrap (Q.coeff d)

theorem wrapPoly_monomial (c : Int) (k : Nat) : WrapPoly t (C (t.wrap c) * X ^ k) (C c * X ^ k) := by
  intro d
  rw [coeff_C_mul, coeff_C_mul, coeff_X_pow]
  split_ifs <;> simp [t.wrap_zero]

theorem wrapPoly_linear (a b : Int) : WrapPoly t (C (t.wrap a) * X + C (t.wrap b)) (C a * X + C b) := by
  intro d
  rw [linear_coeff, linear_coeff]
  split_ifs <;> simp [t.wrap_zero]

theorem wrapPoly_quadratic (a b c : Int) :
    WrapPoly t (C (t.wrap a) * X ^ 2 + C (t.wrap b) * X + C (t.wrap c)) (C a * X ^ 2 + C b * X + C c) := by
  intro d
  rw [quadratic_coeff, quadratic_coeff]
  split_ifs <;> simp [t.wrap_zero]

/-- C81, `Monomial` without overflow checks: negation, product, scaling, power and evaluation return the exact
result reduced to the type (exponents below `2 ^ 32`). -/
theorem C81_monomial (m n : Monomial Int) (c x : Int) (k : Nat) (hk : k < 2 ^ 32) (hd : m.deg < 2 ^ 32) :
    (∃ r, m.negM (.machine false t) = .ok r ∧ WrapPoly t r.poly (-m.poly)) ∧
    (∃ r, m.mulM (.machine false t) n = .ok r ∧ WrapPoly t r.poly (m.poly * n.poly)) ∧
    (∃ r, m.mulScalarM (.machine false t) c = .ok r ∧ WrapPoly t r.poly (m.poly * C c)) ∧
    (∃ r, m.powM (.machine false t) k = .ok r ∧ WrapPoly t r.poly (m.poly ^ k)) ∧
    m.evalM (.machine false t) x = .ok (t.wrap (m.poly.eval x)) := by
  refine ⟨⟨_, rfl, ?_⟩, ⟨_, rfl, ?_⟩, ⟨_, rfl, ?_⟩, ⟨_, rfl, ?_⟩, ?_⟩
  · rw [show -m.poly = C (-m.coefficient) * X ^ m.deg by simp [Monomial.poly]]
    exact wrapPoly_monomial t _ _
  · rw [show m.poly * n.poly = C (m.coefficient * n.coefficient) * X ^ (m.deg + n.deg) by
      simp only [Monomial.poly, C_mul]; ring]
    exact wrapPoly_monomial t _ _
  · rw [show m.poly * C c = C (m.coefficient * c) * X ^ m.deg by simp only [Monomial.poly, C_mul]; ring]
    exact wrapPoly_monomial t _ _
  · rw [show m.poly ^ k = C (m.coefficient ^ k) * X ^ (m.deg * k) by simp only [Monomial.poly, C_pow]; ring]
    show WrapPoly t (C (t.wrap (m.coefficient ^ (k % 2 ^ 32))) * X ^ (m.deg * k)) _
    rw [Nat.mod_eq_of_lt hk]
    exact wrapPoly_monomial t _ _
  · show Res.ok (t.wrap (m.coefficient * t.wrap (x ^ (m.deg % 2 ^ 32)))) = _
    rw [Nat.mod_eq_of_lt hd]
    congr 1
    rw [wrap_eq_iff]
    push_cast
    rw [cast_wrap]
    simp [Monomial.poly]

/-- C81, `LinearBinomial` without overflow checks. -/
theorem C81_linear (a b : LinearBinomial Int) (c x : Int) :
    (∃ r, a.negM (.machine false t) = .ok r ∧ WrapPoly t r.poly (-a.poly)) ∧
    (∃ r, a.addM (.machine false t) b = .ok r ∧ WrapPoly t r.poly (a.poly + b.poly)) ∧
    (∃ r, a.subM (.machine false t) b = .ok r ∧ WrapPoly t r.poly (a.poly - b.poly)) ∧
    (∃ r, a.mulScalarM (.machine false t) c = .ok r ∧ WrapPoly t r.poly (a.poly * C c)) ∧
    a.evalM (.machine false t) x = .ok (t.wrap (a.poly.eval x)) := by
  refine ⟨⟨_, rfl, ?_⟩, ⟨_, rfl, ?_⟩, ⟨_, rfl, ?_⟩, ⟨_, rfl, ?_⟩, ?_⟩
  · rw [show -a.poly = C (-a.c0) * X + C (-a.c1) by simp only [LinearBinomial.poly, C_neg]; ring]
    exact wrapPoly_linear t _ _
  · rw [show a.poly + b.poly = C (a.c0 + b.c0) * X + C (a.c1 + b.c1) by simp only [LinearBinomial.poly, C_add]; ring]
    exact wrapPoly_linear t _ _
  · rw [show a.poly - b.poly = C (a.c0 - b.c0) * X + C (a.c1 - b.c1) by simp only [LinearBinomial.poly, C_sub]; ring]
    exact wrapPoly_linear t _ _
  · rw [show a.poly * C c = C (a.c0 * c) * X + C (a.c1 * c) by simp only [LinearBinomial.poly, C_mul]; ring]
    exact wrapPoly_linear t _ _
  · show Res.ok (t.wrap (t.wrap (x * a.c0) + a.c1)) = _
    rw [wrap_add_left]
    congr 2
    simp [LinearBinomial.poly]; ring

/-- C81, `QuadraticTrinomial` without overflow checks. -/
theorem C81_quadratic (a b : QuadraticTrinomial Int) (c x : Int) :
    (∃ r, a.negM (.machine false t) = .ok r ∧ WrapPoly t r.poly (-a.poly)) ∧
    (∃ r, a.addM (.machine false t) b = .ok r ∧ WrapPoly t r.poly (a.poly + b.poly)) ∧
    (∃ r, a.subM (.machine false t) b = .ok r ∧ WrapPoly t r.poly (a.poly - b.poly)) ∧
    (∃ r, a.mulScalarM (.machine false t) c = .ok r ∧ WrapPoly t r.poly (a.poly * C c)) ∧
    a.evalM (.machine false t) x = .ok (t.wrap (a.poly.eval x)) ∧
    a.discriminantM (.machine false t) = .ok (t.wrap (a.c1 ^ 2 - 4 * a.c0 * a.c2)) := by
  refine ⟨⟨_, rfl, ?_⟩, ⟨_, rfl, ?_⟩, ⟨_, rfl, ?_⟩, ⟨_, rfl, ?_⟩, ?_, ?_⟩
  · rw [show -a.poly = C (-a.c0) * X ^ 2 + C (-a.c1) * X + C (-a.c2) by simp only [QuadraticTrinomial.poly, C_neg]; ring]
    exact wrapPoly_quadratic t _ _ _
  · rw [show a.poly + b.poly = C (a.c0 + b.c0) * X ^ 2 + C (a.c1 + b.c1) * X + C (a.c2 + b.c2) by
      simp only [QuadraticTrinomial.poly, C_add]; ring]
    exact wrapPoly_quadratic t _ _ _
  · rw [show a.poly - b.poly = C (a.c0 - b.c0) * X ^ 2 + C (a.c1 - b.c1) * X + C (a.c2 - b.c2) by
      simp only [QuadraticTrinomial.poly, C_sub]; ring]
    exact wrapPoly_quadratic t _ _ _
  · rw [show a.poly * C c = C (a.c0 * c) * X ^ 2 + C (a.c1 * c) * X + C (a.c2 * c) by
      simp only [QuadraticTrinomial.poly, C_mul]; ring]
    exact wrapPoly_quadratic t _ _ _
  · show Res.ok (t.wrap (t.wrap (x * t.wrap (t.wrap (a.c0 * x) + a.c1)) + a.c2)) = _
    congr 1
    rw [wrap_eq_iff]
    push_cast
    rw [cast_wrap]
    push_cast
    rw [cast_wrap]
    push_cast
    rw [cast_wrap]
    simp [QuadraticTrinomial.poly]; ring
  · show Res.ok (t.wrap (t.wrap (a.c1 * a.c1) - t.wrap (t.wrap (a.c0 * a.c2) * 4))) = _
    congr 1
    rw [wrap_eq_iff]
    push_cast
    rw [cast_wrap, cast_wrap]
    push_cast
    rw [cast_wrap]
    push_cast
    ring

/-- C81, `ArrayPolynomial::eval` without overflow checks. -/
theorem C81_array_eval {size : Nat} (hb : 1 ≤ t.bits) (p : ArrayPoly Int size) (x : Int) (hp : ∀ c ∈ p.coefficients, t.InRange c) :
    p.evalM (.machine false t) x = .ok (t.wrap ((descPoly p.coefficients).eval x)) := by
  have e : p.evalM (.machine false t) x = (⟨p.coefficients⟩ : Poly Int).evalM (.machine false t) x := by
    unfold ArrayPoly.evalM Poly.evalM
    simp
    rfl
  rw [e]
  exact C57_eval t hb ⟨p.coefficients⟩ x hp

end

-- Non-vacuity: `u8` and `i8` results which wrap; a nilpotent base (16² = 256) raised to the power 4 panics, to the
-- power 3 it is zero.
example : (⟨[16]⟩ : Poly Int).powM (.machine false ⟨false, 8⟩) 4 = .panic ∧
    (⟨[16]⟩ : Poly Int).powM (.machine false ⟨false, 8⟩) 3 = .ok ⟨[]⟩ ∧
    (⟨[16, 3]⟩ : Poly Int).powM (.machine false ⟨false, 8⟩) 4 = .ok ⟨[192, 81]⟩ ∧
    (⟨[100, 50, 7]⟩ : Poly Int).derivativeM (.machine false ⟨true, 8⟩) (tryFromUsizeContInt 64 ⟨true, 8⟩) =
      .ok ⟨[-56, 50]⟩ := by decide +kernel
example : ((Sparse.fromVec [16, 3]).powM (.machine false ⟨false, 8⟩) 4).bind (fun r => .ok r.terms.entries) =
      .ok [(0, 81), (1, 192), (2, 0), (3, 0)] ∧
    ((Sparse.fromVec [100, 0, -128]).negM (.machine false ⟨true, 8⟩)).bind (fun r => .ok r.terms.entries) =
      .ok [(0, -128), (2, -100)] ∧
    (Sparse.fromVec [2, 0, 1]).evalM (.machine false ⟨true, 8⟩) 100 = .ok 33 := by decide +kernel
example : (⟨100, 5⟩ : LinearBinomial Int).addM (.machine false ⟨true, 8⟩) ⟨100, 1⟩ = .ok ⟨-56, 6⟩ ∧
    (⟨1, 100, 3⟩ : QuadraticTrinomial Int).discriminantM (.machine false ⟨true, 8⟩) = .ok 4 := by decide +kernel

end Rustnomial
