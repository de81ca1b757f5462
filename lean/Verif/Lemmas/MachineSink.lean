import Verif.Props.MachineBuild

/-!
# Terms added to and subtracted from a polynomial, one after the other: what is taken, what is refused
-/

open Polynomial

namespace Rustnomial

section
variable (t : IntTy)

/-- One kind of step of a build with or without overflow checks.  A taken term writes the checked or reduced new
coefficient, a refused term changes nothing. -/
structure Sink (chk : Bool) (S : Type) (repr : S → ℤ[X]) (σ : Int) (e : TryAddError)
    (stepM : S → Int → Nat → Res (S × Except TryAddError Unit)) where
  inv : S → Prop
  dom : Nat → Prop
  acc : S → Int → Nat → Prop
  put : S → Int → Nat → Int → S
  ok : ∀ s c d, inv s → (∀ n, t.InRange ((repr s).coeff n)) → t.InRange c → dom d → acc s c d →
    stepM s c d = (t.result chk ((repr s).coeff d + σ * c) >>= fun v => Res.ok (put s c d v, .ok ()))
  err : ∀ s c d, inv s → dom d → ¬ acc s c d → stepM s c d = .ok (s, .error e)
  inv_put : ∀ s c d v, inv s → dom d → acc s c d → inv (put s c d v)
  coeff_put : ∀ s c d v, inv s → dom d → acc s c d → (c = 0 → v = (repr s).coeff d) →
    ∀ n, (repr (put s c d v)).coeff n = if n = d then v else (repr s).coeff n

end

section
variable {t : IntTy} {S : Type} {repr : S → ℤ[X]} {σ : Int} {e : TryAddError}
  {stepM : S → Int → Nat → Res (S × Except TryAddError Unit)}

theorem coeff_term_add (P : ℤ[X]) (c : Int) (d n : Nat) :
    (P + C c * X ^ d).coeff n = if n = d then P.coeff d + c else P.coeff n := by
  rw [coeff_add, coeff_C_mul, coeff_X_pow]
  split_ifs with h
  · rw [h]; simp
  · simp

theorem Sink.poly_put {chk : Bool} (K : Sink t chk S repr σ e stepM) {s : S} {c : Int} {d : Nat} (hi : K.inv s)
    (hd : K.dom d) (ha : K.acc s c d) :
    repr (K.put s c d ((repr s).coeff d + σ * c)) = repr s + C (σ * c) * X ^ d := by
  ext n
  rw [K.coeff_put s c d _ hi hd ha (fun h => by simp [h]), coeff_term_add]

theorem endsAfter_cons {T T' : List (ℤ × Nat) → Prop} {x : ℤ × Nat} {ts pre : List (ℤ × Nat)}
    {r : Except TryAddError Unit} (hT : ∀ l, T (x :: l) ↔ T' l) (h : EndsAfter T' e ts pre r) :
    EndsAfter T e (x :: ts) (x :: pre) r := by
  obtain ⟨h1, h2⟩ := h
  refine ⟨(hT _).2 h1, ?_⟩
  rcases h2 with ⟨rfl, h⟩ | ⟨y, h, h', h''⟩
  · exact .inl ⟨rfl, h⟩
  · exact .inr ⟨y, by simpa using h, fun g => h' ((hT _).1 g), h''⟩

theorem fitsWhile_cons {T T' : List (ℤ × Nat) → Prop} {P : ℤ[X]} {c : ℤ} {d : Nat} {ts : List (ℤ × Nat)}
    (h0 : T []) (h0' : T' []) (hT : ∀ l, T ((c, d) :: l) ↔ T' l) (hin : ∀ n, t.InRange (P.coeff n)) :
    FitsWhile t T σ P ((c, d) :: ts) ↔ t.InRange (P.coeff d + σ * c) ∧ FitsWhile t T' σ (P + C (σ * c) * X ^ d) ts := by
  have key : ∀ pre, P + C σ * termsPoly ((c, d) :: pre) = P + C (σ * c) * X ^ d + C σ * termsPoly pre := by
    intro pre
    rw [termsPoly_cons, C_mul]; ring
  constructor
  · intro R
    refine ⟨?_, fun pre hpre hp n => ?_⟩
    · have := R [(c, d)] (by simp) ((hT []).2 h0') d
      rw [key, termsPoly_nil, mul_zero, add_zero, coeff_term_add, if_pos rfl] at this
      exact this
    · have := R ((c, d) :: pre) (by simpa using hpre) ((hT _).2 hp) n
      rwa [key] at this
  · rintro ⟨h1, R⟩ pre hpre hp n
    cases pre with
    | nil => simpa using hin n
    | cons x pre =>
      obtain ⟨rfl, hpre'⟩ := List.cons_prefix_cons.1 hpre
      rw [key]
      exact R pre hpre' ((hT _).1 hp) n

theorem fitsWhile_refused {T : List (ℤ × Nat) → Prop} {P : ℤ[X]} {c : ℤ} {d : Nat} {ts : List (ℤ × Nat)}
    (hT : ∀ l, ¬ T ((c, d) :: l)) (hin : ∀ n, t.InRange (P.coeff n)) : FitsWhile t T σ P ((c, d) :: ts) := by
  intro pre hpre hp n
  cases pre with
  | nil => simpa using hin n
  | cons x pre =>
    obtain ⟨rfl, _⟩ := List.cons_prefix_cons.1 hpre
    exact absurd hp (hT _)

theorem productsFit_cons {w : Nat} {T T' : List (ℤ × Nat) → Prop} {a b : ℤ × Nat} {ps : List ((ℤ × Nat) × (ℤ × Nat))}
    (h0 : T []) (hm : t.InRange (a.1 * b.1) ∧ a.2 + b.2 < 2 ^ w) (hT : ∀ l, T ((a.1 * b.1, a.2 + b.2) :: l) ↔ T' l) :
    ProductsFit t w T ((a, b) :: ps) ↔ ProductsFit t w T' ps := by
  constructor
  · intro h pre x hpre hp
    exact h ((a, b) :: pre) x (by simpa using hpre) ((hT _).2 hp)
  · intro h pre x hpre hp
    cases pre with
    | nil =>
      obtain ⟨rfl, _⟩ := List.cons_prefix_cons.1 hpre
      exact hm
    | cons y pre =>
      obtain ⟨rfl, hpre'⟩ := List.cons_prefix_cons.1 hpre
      exact h pre x hpre' ((hT _).1 hp)

theorem productsFit_refused {w : Nat} {T : List (ℤ × Nat) → Prop} {a b : ℤ × Nat} {ps : List ((ℤ × Nat) × (ℤ × Nat))}
    (hm : t.InRange (a.1 * b.1) ∧ a.2 + b.2 < 2 ^ w) (hT : ∀ l, ¬ T ((a.1 * b.1, a.2 + b.2) :: l)) :
    ProductsFit t w T ((a, b) :: ps) := by
  intro pre x hpre hp
  cases pre with
  | nil =>
    obtain ⟨rfl, _⟩ := List.cons_prefix_cons.1 hpre
    exact hm
  | cons y pre =>
    obtain ⟨rfl, _⟩ := List.cons_prefix_cons.1 hpre
    exact absurd hp (hT _)

theorem wrap_add_mul_right (t : IntTy) (x σ c : Int) : t.wrap (x + σ * t.wrap c) = t.wrap (x + σ * c) := by
  rw [← wrap_add_right, mul_comm σ (t.wrap c), wrap_mul_left, wrap_add_right, mul_comm c σ]

/-- The run of a build with overflow checks. -/
theorem Sink.run_checked (K : Sink t true S repr σ e stepM) (T : S → List (ℤ × Nat) → Prop) (h0 : ∀ s, T s [])
    (hT : ∀ s c d l, K.inv s → K.dom d → (T s ((c, d) :: l) ↔
      K.acc s c d ∧ (K.acc s c d → T (K.put s c d ((repr s).coeff d + σ * c)) l))) :
    ∀ (ts : List (Int × Nat)) (s : S), K.inv s → (∀ n, t.InRange ((repr s).coeff n)) →
      (∀ x ∈ ts, t.InRange x.1 ∧ K.dom x.2) →
      (FitsWhile t (T s) σ (repr s) ts → ∃ r res pre, runSM stepM ts s = .ok (r, res) ∧ EndsAfter (T s) e ts pre res ∧
        repr r = repr s + C σ * termsPoly pre) ∧
      (¬ FitsWhile t (T s) σ (repr s) ts → runSM stepM ts s = .panic)
  | [], s, _, hin, _ => by
    refine ⟨fun _ => ⟨s, .ok (), [], rfl, ⟨h0 s, .inl ⟨rfl, rfl⟩⟩, by simp⟩, fun h => absurd ?_ h⟩
    intro pre hpre _ n
    obtain rfl : pre = [] := by simpa using hpre
    simpa using hin n
  | (c, d) :: ts, s, hi, hin, hts => by
    obtain ⟨hc, hd⟩ := hts (c, d) (by simp)
    by_cases ha : K.acc s c d
    · have hT' : ∀ l, T s ((c, d) :: l) ↔ T (K.put s c d ((repr s).coeff d + σ * c)) l := fun l => by
        rw [hT s c d l hi hd, and_iff_right ha]; exact ⟨fun h => h ha, fun h _ => h⟩
      rw [fitsWhile_cons (h0 s) (h0 _) hT' hin]
      by_cases hr : t.InRange ((repr s).coeff d + σ * c)
      · have hv : t.result true ((repr s).coeff d + σ * c) = .ok ((repr s).coeff d + σ * c) := (chk_result t _).1 hr
        have hp := K.poly_put hi hd ha
        have e1 : runSM stepM ((c, d) :: ts) s = runSM stepM ts (K.put s c d ((repr s).coeff d + σ * c)) := by
          rw [runSM, K.ok s c d hi hin hc hd ha, hv]; rfl
        have hin' : ∀ n, t.InRange ((repr (K.put s c d ((repr s).coeff d + σ * c))).coeff n) := by
          intro n
          rw [hp, coeff_term_add]
          split_ifs
          · exact hr
          · exact hin n
        obtain ⟨g1, g2⟩ := K.run_checked T h0 hT ts _ (K.inv_put s c d _ hi hd ha) hin' (fun x hx => hts x (by simp [hx]))
        rw [e1]
        rw [hp] at g1 g2
        refine ⟨fun ⟨_, h⟩ => ?_, fun h => g2 (fun h' => h ⟨hr, h'⟩)⟩
        obtain ⟨r, res, pre, q1, q2, q3⟩ := g1 h
        refine ⟨r, res, (c, d) :: pre, q1, endsAfter_cons hT' q2, ?_⟩
        rw [q3, termsPoly_cons, C_mul]; ring
      · refine ⟨fun h => absurd h.1 hr, fun _ => ?_⟩
        rw [runSM, K.ok s c d hi hin hc hd ha, (chk_result t _).2 hr]; rfl
    · have hT' : ∀ l, ¬ T s ((c, d) :: l) := fun l h => ha ((hT s c d l hi hd).1 h).1
      refine ⟨fun _ => ⟨s, .error e, [], ?_, ⟨h0 s, .inr ⟨(c, d), by simp, hT' _, rfl⟩⟩, by simp⟩,
        fun h => absurd (fitsWhile_refused hT' hin) h⟩
      rw [runSM, K.err s c d hi hd ha]; rfl

/-- The run of a build without overflow checks, over the reduced coefficients. -/
theorem Sink.run_wrap (hb : 1 ≤ t.bits) (K : Sink t false S repr σ e stepM) (A : Int → Prop)
    (T : S → List (ℤ × Nat) → Prop) (h0 : ∀ s, T s [])
    (hT : ∀ s c d l, K.inv s → (∀ n, t.InRange ((repr s).coeff n)) → K.dom d → A c → (T s ((c, d) :: l) ↔
      K.acc s (t.wrap c) d ∧ (K.acc s (t.wrap c) d → T (K.put s (t.wrap c) d (t.wrap ((repr s).coeff d + σ * t.wrap c))) l))) :
    ∀ (ts : List (Int × Nat)) (s : S) (P : ℤ[X]), K.inv s → (∀ n, (repr s).coeff n = t.wrap (P.coeff n)) →
      (∀ x ∈ ts, A x.1 ∧ K.dom x.2) →
      ∃ r res pre, runSM stepM (ts.map fun x => (t.wrap x.1, x.2)) s = .ok (r, res) ∧ EndsAfter (T s) e ts pre res ∧
        WrapPoly t (repr r) (P + C σ * termsPoly pre)
  | [], s, P, _, hin, _ => ⟨s, .ok (), [], rfl, ⟨h0 s, .inl ⟨rfl, rfl⟩⟩, fun n => by simpa using hin n⟩
  | (c, d) :: ts, s, P, hi, hin, hts => by
    obtain ⟨hc, hd⟩ := hts (c, d) (by simp)
    have hin' : ∀ n, t.InRange ((repr s).coeff n) := fun n => by rw [hin n]; exact t.wrap_inRange hb _
    by_cases ha : K.acc s (t.wrap c) d
    · have hT' : ∀ l, T s ((c, d) :: l) ↔ T (K.put s (t.wrap c) d (t.wrap ((repr s).coeff d + σ * t.wrap c))) l := fun l => by
        rw [hT s c d l hi hin' hd hc, and_iff_right ha]; exact ⟨fun h => h ha, fun h _ => h⟩
      have e1 : runSM stepM (((c, d) :: ts).map fun x => (t.wrap x.1, x.2)) s =
          runSM stepM (ts.map fun x => (t.wrap x.1, x.2)) (K.put s (t.wrap c) d (t.wrap ((repr s).coeff d + σ * t.wrap c))) := by
        rw [List.map_cons, runSM, K.ok s _ d hi hin' (t.wrap_inRange hb c) hd ha]; rfl
      have hco : ∀ n, (repr (K.put s (t.wrap c) d (t.wrap ((repr s).coeff d + σ * t.wrap c)))).coeff n =
          t.wrap ((P + C (σ * c) * X ^ d).coeff n) := by
        intro n
        rw [K.coeff_put s _ d _ hi hd ha
          (fun h => by rw [h, mul_zero, add_zero, t.wrap_of_inRange hb _ (hin' d)]), coeff_term_add]
        split_ifs
        · rw [hin d, wrap_add_left, wrap_add_mul_right]
        · exact hin n
      obtain ⟨r, res, pre, q1, q2, q3⟩ := K.run_wrap hb A T h0 hT ts _ _ (K.inv_put s _ d _ hi hd ha) hco
        (fun x hx => hts x (by simp [hx]))
      refine ⟨r, res, (c, d) :: pre, e1.trans q1, endsAfter_cons hT' q2, ?_⟩
      rw [termsPoly_cons]
      have : P + C σ * (C c * X ^ d + termsPoly pre) = P + C (σ * c) * X ^ d + C σ * termsPoly pre := by
        rw [C_mul]; ring
      rw [this]; exact q3
    · have hT' : ∀ l, ¬ T s ((c, d) :: l) := fun l h => ha ((hT s c d l hi hin' hd hc).1 h).1
      refine ⟨s, .error e, [], ?_, ⟨h0 s, .inr ⟨(c, d), by simp, hT' _, rfl⟩⟩, fun n => by simpa using hin n⟩
      rw [List.map_cons, runSM, K.err s _ d hi hd ha]; rfl

/-- A step that panics outside `dom`, when no term is refused. -/
theorem Sink.run_panic (hb : 1 ≤ t.bits) (K : Sink t false S repr σ e stepM) (M : Nat)
    (hacc : ∀ s c d, K.acc s c d) (hpan : ∀ s c d, K.inv s → d < M → ¬ K.dom d → stepM s c d = .panic) :
    ∀ (ts : List (Int × Nat)) (s : S), K.inv s → (∀ n, t.InRange ((repr s).coeff n)) →
      (∀ x ∈ ts, t.InRange x.1 ∧ x.2 < M) → ¬ (∀ x ∈ ts, K.dom x.2) → runSM stepM ts s = .panic
  | [], s, _, _, _, h => absurd (by simp) h
  | (c, d) :: ts, s, hi, hin, hts, h => by
    obtain ⟨hc, hd⟩ := hts (c, d) (by simp)
    by_cases hdom : K.dom d
    · have ha := hacc s c d
      rw [runSM, K.ok s c d hi hin hc hdom ha]
      show runSM stepM ts (K.put s c d (t.wrap ((repr s).coeff d + σ * c))) = .panic
      refine K.run_panic hb M hacc hpan ts _ (K.inv_put s c d _ hi hdom ha) (fun n => ?_)
        (fun x hx => hts x (by simp [hx])) (fun h' => h ?_)
      · rw [K.coeff_put s c d _ hi hdom ha (fun h => by rw [h, mul_zero, add_zero, t.wrap_of_inRange hb _ (hin d)])]
        split_ifs
        · exact t.wrap_inRange hb _
        · exact hin n
      · intro x hx
        rcases List.mem_cons.1 hx with rfl | hx
        · exact hdom
        · exact h' x hx
    · rw [runSM, hpan s c d hi hd hdom]; rfl

/-- The product of two terms. -/
abbrev prodTerm (p : (Int × Nat) × (Int × Nat)) : Int × Nat := (p.1.1 * p.2.1, p.1.2 + p.2.2)

/-- Products of terms in a build with overflow checks. -/
theorem Sink.runX_checked {w cap : Nat} (K : Sink t true S repr σ e stepM) (hdom : ∀ d, K.dom d)
    (T : S → List (ℤ × Nat) → Prop) (h0 : ∀ s, T s [])
    (hT : ∀ s c d l, K.inv s → K.dom d → (T s ((c, d) :: l) ↔
      K.acc s c d ∧ (K.acc s c d → T (K.put s c d ((repr s).coeff d + σ * c)) l))) :
    ∀ (ps : List ((Int × Nat) × (Int × Nat))) (s : S), K.inv s → (∀ n, t.InRange ((repr s).coeff n)) →
      (ProductsFit t w (T s) ps ∧ FitsWhile t (T s) σ (repr s) (ps.map prodTerm) →
        ∃ r res pre, runXM (.machine true t w cap) stepM ps s = .ok (r, res) ∧
          EndsAfter (T s) e (ps.map prodTerm) pre res ∧ repr r = repr s + C σ * termsPoly pre) ∧
      (¬ (ProductsFit t w (T s) ps ∧ FitsWhile t (T s) σ (repr s) (ps.map prodTerm)) →
        runXM (.machine true t w cap) stepM ps s = .panic)
  | [], s, _, hin => by
    refine ⟨fun _ => ⟨s, .ok (), [], rfl, ⟨h0 s, .inl ⟨rfl, rfl⟩⟩, by simp⟩, fun h => absurd ⟨?_, ?_⟩ h⟩
    · intro pre x hpre
      simp at hpre
    · intro pre hpre _ n
      obtain rfl : pre = [] := by simpa using hpre
      simpa using hin n
  | (a, b) :: ps, s, hi, hin => by
    by_cases hm : t.InRange (a.1 * b.1) ∧ a.2 + b.2 < 2 ^ w
    · have e1 : (Env.machine true t w cap).ar.mul a.1 b.1 = .ok (a.1 * b.1) := (chk_result t _).1 hm.1
      have e2 : (Env.machine true t w cap).usz.add a.2 b.2 = .ok (a.2 + b.2) := USz.add_fits (u := ⟨w, true⟩) hm.2
      rw [runXM, e1, Res.ok_bind, e2, Res.ok_bind, List.map_cons]
      by_cases ha : K.acc s (a.1 * b.1) (a.2 + b.2)
      · have hd := hdom (a.2 + b.2)
        have hT' : ∀ l, T s ((a.1 * b.1, a.2 + b.2) :: l) ↔
            T (K.put s (a.1 * b.1) (a.2 + b.2) ((repr s).coeff (a.2 + b.2) + σ * (a.1 * b.1))) l := fun l => by
          rw [hT s _ _ l hi hd, and_iff_right ha]; exact ⟨fun h => h ha, fun h _ => h⟩
        rw [fitsWhile_cons (h0 s) (h0 _) hT' hin, productsFit_cons (h0 s) hm hT',
          K.ok s _ _ hi hin hm.1 hd ha]
        by_cases hr : t.InRange ((repr s).coeff (a.2 + b.2) + σ * (a.1 * b.1))
        · have hp := K.poly_put hi hd ha
          have hin' : ∀ n, t.InRange ((repr (K.put s (a.1 * b.1) (a.2 + b.2)
              ((repr s).coeff (a.2 + b.2) + σ * (a.1 * b.1)))).coeff n) := by
            intro n
            rw [hp, coeff_term_add]
            split_ifs
            · exact hr
            · exact hin n
          obtain ⟨g1, g2⟩ := K.runX_checked (w := w) (cap := cap) hdom T h0 hT ps _ (K.inv_put s _ _ _ hi hd ha) hin'
          rw [(chk_result t _).1 hr, Res.ok_bind, Res.ok_bind]
          rw [hp] at g1 g2
          refine ⟨fun ⟨h1, _, h⟩ => ?_, fun h => g2 (fun h' => h ⟨h'.1, hr, h'.2⟩)⟩
          obtain ⟨r, res, pre, q1, q2, q3⟩ := g1 ⟨h1, h⟩
          refine ⟨r, res, (a.1 * b.1, a.2 + b.2) :: pre, q1, endsAfter_cons hT' q2, ?_⟩
          rw [q3, termsPoly_cons, C_mul]; ring
        · refine ⟨fun h => absurd h.2.1 hr, fun _ => ?_⟩
          rw [(chk_result t _).2 hr]; rfl
      · have hT' : ∀ l, ¬ T s ((a.1 * b.1, a.2 + b.2) :: l) := fun l h => ha ((hT s _ _ l hi (hdom _)).1 h).1
        refine ⟨fun _ => ⟨s, .error e, [], ?_, ⟨h0 s, .inr ⟨_, by simp, hT' _, rfl⟩⟩, by simp⟩,
          fun h => absurd ⟨productsFit_refused hm hT', fitsWhile_refused hT' hin⟩ h⟩
        rw [K.err s _ _ hi (hdom _) ha]; rfl
    · refine ⟨fun h => absurd (h.1 [] (a, b) (by simp) (h0 s)) hm, fun _ => ?_⟩
      rw [runXM]
      by_cases h1 : t.InRange (a.1 * b.1)
      · have e1 : (Env.machine true t w cap).ar.mul a.1 b.1 = .ok (a.1 * b.1) := (chk_result t _).1 h1
        have e2 : (Env.machine true t w cap).usz.add a.2 b.2 = .panic := by
          show (USz.mk w true).add a.2 b.2 = .panic
          have : ¬ a.2 + b.2 < 2 ^ w := fun h => hm ⟨h1, h⟩
          simp [USz.add, USz.result, this]
        rw [e1, Res.ok_bind, e2]; rfl
      · have e1 : (Env.machine true t w cap).ar.mul a.1 b.1 = .panic := (chk_result t _).2 h1
        rw [e1]; rfl

theorem runXM_wrap {w cap : Nat} : ∀ (ps : List ((Int × Nat) × (Int × Nat))) (s : S), (∀ p ∈ ps, p.1.2 + p.2.2 < 2 ^ w) →
    runXM (.machine false t w cap) stepM ps s = runSM stepM ((ps.map prodTerm).map fun x => (t.wrap x.1, x.2)) s
  | [], _, _ => rfl
  | (a, b) :: ps, s, h => by
    have e2 : (Env.machine false t w cap).usz.add a.2 b.2 = .ok (a.2 + b.2) :=
      USz.add_fits (u := ⟨w, false⟩) (h (a, b) (by simp))
    have e1 : (Env.machine false t w cap).ar.mul a.1 b.1 = .ok (t.wrap (a.1 * b.1)) := rfl
    rw [runXM, e1, Res.ok_bind, e2, Res.ok_bind]
    simp only [List.map_cons, runSM]
    congr 1; funext r
    obtain ⟨s', r⟩ := r
    cases r with
    | ok u => exact runXM_wrap ps s' (fun p hp => h p (by simp [hp]))
    | error e => rfl

end

/-! ## The types -/

section
variable {t : IntTy} {w cap : Nat}

theorem machine_add (chk : Bool) (x y : Int) : (Env.machine chk t w cap).ar.add x y = t.result chk (x + y) := rfl
theorem machine_sub (chk : Bool) (x y : Int) : (Env.machine chk t w cap).ar.sub x y = t.result chk (x - y) := rfl

theorem linear_coeff_modify (b : LinearBinomial Int) {d : Nat} (hd : d ≤ 1) (v : Int) (n : Nat) :
    (b.modify (1 - d) (fun _ => v)).poly.coeff n = if n = d then v else b.poly.coeff n := by
  rw [LinearBinomial.poly, LinearBinomial.poly, linear_coeff, linear_coeff]
  interval_cases d
  · simp only [LinearBinomial.modify]
    rcases n with _ | _ | n <;> simp
  · simp only [LinearBinomial.modify]
    rcases n with _ | _ | n <;> simp

theorem quadratic_coeff_modify (b : QuadraticTrinomial Int) {d : Nat} (hd : d ≤ 2) (v : Int) (n : Nat) :
    (b.modify (2 - d) (fun _ => v)).poly.coeff n = if n = d then v else b.poly.coeff n := by
  rw [QuadraticTrinomial.poly, QuadraticTrinomial.poly, quadratic_coeff, quadratic_coeff]
  interval_cases d
  · simp only [QuadraticTrinomial.modify]
    rcases n with _ | _ | _ | n <;> simp
  · simp only [QuadraticTrinomial.modify]
    rcases n with _ | _ | _ | n <;> simp
  · simp only [QuadraticTrinomial.modify]
    rcases n with _ | _ | _ | n <;> simp

/-- `try_add_term` of a linear binomial. -/
def linearAddSink (chk : Bool) : Sink t chk (LinearBinomial Int) LinearBinomial.poly 1 .degreeOutOfBounds
    (MutPolyM.tryAddTermM (.machine chk t w cap)) where
  inv _ := True
  dom _ := True
  acc _ _ d := d ≤ 1
  put s _ d v := s.modify (1 - d) (fun _ => v)
  ok s c d _ _ _ _ ha := by
    show s.tryAddTermM (.machine chk t) c d = _
    unfold LinearBinomial.tryAddTermM
    rw [if_pos ha, LinearBinomial.poly, linear_coeff, one_mul]
    interval_cases d <;> rfl
  err s c d _ _ ha := by
    show s.tryAddTermM (.machine chk t) c d = _
    unfold LinearBinomial.tryAddTermM
    rw [if_neg ha]
  inv_put _ _ _ _ _ _ _ := trivial
  coeff_put s c d v _ _ ha _ n := linear_coeff_modify s ha v n

/-- `try_sub_term` of a linear binomial. -/
def linearSubSink (chk : Bool) : Sink t chk (LinearBinomial Int) LinearBinomial.poly (-1) .degreeOutOfBounds
    (MutPolyM.trySubTermM (.machine chk t w cap)) where
  inv _ := True
  dom _ := True
  acc _ _ d := d ≤ 1
  put s _ d v := s.modify (1 - d) (fun _ => v)
  ok s c d _ _ _ _ ha := by
    show s.trySubTermM (.machine chk t) c d = _
    unfold LinearBinomial.trySubTermM
    rw [if_pos ha, LinearBinomial.poly, linear_coeff, neg_one_mul, ← sub_eq_add_neg]
    interval_cases d <;> rfl
  err s c d _ _ ha := by
    show s.trySubTermM (.machine chk t) c d = _
    unfold LinearBinomial.trySubTermM
    rw [if_neg ha]
  inv_put _ _ _ _ _ _ _ := trivial
  coeff_put s c d v _ _ ha _ n := linear_coeff_modify s ha v n

/-- `try_add_term` of a quadratic trinomial. -/
def quadraticAddSink (chk : Bool) : Sink t chk (QuadraticTrinomial Int) QuadraticTrinomial.poly 1 .degreeOutOfBounds
    (MutPolyM.tryAddTermM (.machine chk t w cap)) where
  inv _ := True
  dom _ := True
  acc _ _ d := d ≤ 2
  put s _ d v := s.modify (2 - d) (fun _ => v)
  ok s c d _ _ _ _ ha := by
    show s.tryAddTermM (.machine chk t) c d = _
    unfold QuadraticTrinomial.tryAddTermM
    rw [if_pos ha, QuadraticTrinomial.poly, quadratic_coeff, one_mul]
    interval_cases d <;> rfl
  err s c d _ _ ha := by
    show s.tryAddTermM (.machine chk t) c d = _
    unfold QuadraticTrinomial.tryAddTermM
    rw [if_neg ha]
  inv_put _ _ _ _ _ _ _ := trivial
  coeff_put s c d v _ _ ha _ n := quadratic_coeff_modify s ha v n

/-- `try_sub_term` of a quadratic trinomial. -/
def quadraticSubSink (chk : Bool) : Sink t chk (QuadraticTrinomial Int) QuadraticTrinomial.poly (-1) .degreeOutOfBounds
    (MutPolyM.trySubTermM (.machine chk t w cap)) where
  inv _ := True
  dom _ := True
  acc _ _ d := d ≤ 2
  put s _ d v := s.modify (2 - d) (fun _ => v)
  ok s c d _ _ _ _ ha := by
    show s.trySubTermM (.machine chk t) c d = _
    unfold QuadraticTrinomial.trySubTermM
    rw [if_pos ha, QuadraticTrinomial.poly, quadratic_coeff, neg_one_mul, ← sub_eq_add_neg]
    interval_cases d <;> rfl
  err s c d _ _ ha := by
    show s.trySubTermM (.machine chk t) c d = _
    unfold QuadraticTrinomial.trySubTermM
    rw [if_neg ha]
  inv_put _ _ _ _ _ _ _ := trivial
  coeff_put s c d v _ _ ha _ n := quadratic_coeff_modify s ha v n

theorem coeff_descPoly_set (l : List Int) {d : Nat} (hd : d < l.length) (v : Int) (n : Nat) :
    (descPoly (l.set (l.length - d - 1) v)).coeff n = if n = d then v else (descPoly l).coeff n := by
  by_cases hn : n < l.length
  · rw [coeff_descPoly_of_lt (by simpa using hn), coeff_descPoly_of_lt hn, List.length_set,
      List.getD_eq_getElem?_getD, List.getD_eq_getElem?_getD, List.getElem?_set]
    by_cases h : n = d
    · subst h
      rw [if_pos rfl, if_pos rfl, if_pos (by omega)]; rfl
    · rw [if_neg (by omega), if_neg h]
  · rw [coeff_descPoly_of_le (by simpa using hn), coeff_descPoly_of_le (by omega), if_neg (by omega)]

/-- `try_add_term` of an array polynomial. -/
def arrayAddSink {size : Nat} (chk : Bool) : Sink t chk (ArrayPoly Int size) (fun p => descPoly p.coefficients) 1
    .degreeOutOfBounds (MutPolyM.tryAddTermM (.machine chk t w cap)) where
  inv _ := True
  dom _ := True
  acc _ _ d := d < size
  put s _ d v := ⟨s.coefficients.set (size - d - 1) v, by simp [s.length_eq]⟩
  ok s c d _ _ _ _ ha := by
    show s.tryAddTermE (.machine chk t w cap) c d = _
    unfold ArrayPoly.tryAddTermE
    have h : (descPoly s.coefficients).coeff d = s.coefficients.getD (size - d - 1) 0 := by
      rw [coeff_descPoly_of_lt (by rw [s.length_eq]; exact ha), s.length_eq]
    rw [if_pos ha, one_mul, h]
    rfl
  err s c d _ _ ha := by
    show s.tryAddTermE (.machine chk t w cap) c d = _
    unfold ArrayPoly.tryAddTermE
    rw [if_neg ha]
  inv_put _ _ _ _ _ _ _ := trivial
  coeff_put s c d v _ _ ha _ n := by
    have := coeff_descPoly_set s.coefficients (d := d) (by rw [s.length_eq]; exact ha) v n
    rwa [s.length_eq] at this

/-- `try_sub_term` of an array polynomial. -/
def arraySubSink {size : Nat} (chk : Bool) : Sink t chk (ArrayPoly Int size) (fun p => descPoly p.coefficients) (-1)
    .degreeOutOfBounds (MutPolyM.trySubTermM (.machine chk t w cap)) where
  inv _ := True
  dom _ := True
  acc _ _ d := d < size
  put s _ d v := ⟨s.coefficients.set (size - d - 1) v, by simp [s.length_eq]⟩
  ok s c d _ _ _ _ ha := by
    show s.trySubTermE (.machine chk t w cap) c d = _
    unfold ArrayPoly.trySubTermE
    have h : (descPoly s.coefficients).coeff d = s.coefficients.getD (size - d - 1) 0 := by
      rw [coeff_descPoly_of_lt (by rw [s.length_eq]; exact ha), s.length_eq]
    rw [if_pos ha, neg_one_mul, ← sub_eq_add_neg, h]
    rfl
  err s c d _ _ ha := by
    show s.trySubTermE (.machine chk t w cap) c d = _
    unfold ArrayPoly.trySubTermE
    rw [if_neg ha]
  inv_put _ _ _ _ _ _ _ := trivial
  coeff_put s c d v _ _ ha _ n := by
    have := coeff_descPoly_set s.coefficients (d := d) (by rw [s.length_eq]; exact ha) v n
    rwa [s.length_eq] at this

theorem monomial_coeff (m : Monomial Int) (n : Nat) : m.poly.coeff n = if n = m.deg then m.coefficient else 0 := by
  rw [Monomial.poly, coeff_C_mul, coeff_X_pow]; split_ifs <;> simp

/-- `try_add_term` of a monomial. -/
def monomialAddSink (chk : Bool) : Sink t chk (Monomial Int) Monomial.poly 1 .tooManyTerms
    (MutPolyM.tryAddTermM (.machine chk t w cap)) where
  inv _ := True
  dom _ := True
  acc s _ d := s.isZeroPoly = true ∨ d = s.deg
  put _ _ d v := ⟨v, d⟩
  ok s c d _ _ _ _ ha := by
    show s.tryAddTermM (.machine chk t) c d = _
    unfold Monomial.tryAddTermM
    rw [one_mul, monomial_coeff]
    by_cases h0 : s.isZeroPoly = true
    · rw [if_pos h0]
      have h1 := monomial_isZeroPoly.1 h0
      rw [h1, ite_self]; rfl
    · have hd := ha.resolve_left h0
      rw [if_neg h0, if_pos hd, if_pos hd, hd]; rfl
  err s c d _ _ ha := by
    show s.tryAddTermM (.machine chk t) c d = _
    unfold Monomial.tryAddTermM
    rw [if_neg (fun h => ha (.inl h)), if_neg (fun h => ha (.inr h))]
  inv_put _ _ _ _ _ _ _ := trivial
  coeff_put s c d v _ _ ha _ n := by
    rw [monomial_coeff, monomial_coeff]
    by_cases hn : n = d
    · rw [if_pos hn, if_pos hn]
    · rw [if_neg hn, if_neg hn]
      rcases ha with h | h
      · rw [monomial_isZeroPoly.1 h, ite_self]
      · rw [if_neg (by rw [← h]; exact hn)]

/-- `try_sub_term` of a monomial. -/
def monomialSubSink (chk : Bool) : Sink t chk (Monomial Int) Monomial.poly (-1) .tooManyTerms
    (MutPolyM.trySubTermM (.machine chk t w cap)) where
  inv _ := True
  dom _ := True
  acc s _ d := s.isZeroPoly = true ∨ d = s.deg
  put _ _ d v := ⟨v, d⟩
  ok s c d _ _ _ _ ha := by
    show s.trySubTermM (.machine chk t) c d = _
    unfold Monomial.trySubTermM
    rw [neg_one_mul, ← sub_eq_add_neg, monomial_coeff]
    by_cases h0 : s.isZeroPoly = true
    · rw [if_pos h0]
      have h1 := monomial_isZeroPoly.1 h0
      rw [h1, ite_self]; rfl
    · have hd := ha.resolve_left h0
      rw [if_neg h0, if_pos hd, if_pos hd, hd]; rfl
  err s c d _ _ ha := by
    show s.trySubTermM (.machine chk t) c d = _
    unfold Monomial.trySubTermM
    rw [if_neg (fun h => ha (.inl h)), if_neg (fun h => ha (.inr h))]
  inv_put _ _ _ _ _ _ _ := trivial
  coeff_put s c d v _ _ ha _ n := by
    rw [monomial_coeff, monomial_coeff]
    by_cases hn : n = d
    · rw [if_pos hn, if_pos hn]
    · rw [if_neg hn, if_neg hn]
      rcases ha with h | h
      · rw [monomial_isZeroPoly.1 h, ite_self]
      · rw [if_neg (by rw [← h]; exact hn)]

theorem modifyM_eq {α : Type} (f : α → Res α) (z : α) : ∀ (l : List α) (i : Nat), i < l.length →
    modifyM f l i = (f (l.getD i z) >>= fun v => Res.ok (l.set i v))
  | [], i, h => by simp at h
  | x :: l, 0, _ => by
    show (f x >>= fun y => Res.ok (y :: l)) = _
    rfl
  | x :: l, i + 1, h => by
    show (modifyM f l i >>= fun ys => Res.ok (x :: ys)) = _
    rw [modifyM_eq f z l i (by simpa using h), bind_assoc]
    rfl

/-- `try_sub_term` of a dense polynomial over an unsigned type: `L` is the number of coefficients, which stays the
same. -/
def denseUnsignedSubSink (chk : Bool) (hs : t.signed = false) (L : Nat) :
    Sink t chk (Poly Int) (fun p => descPoly p.terms) (-1) .canNotNegate
      (MutPolyM.trySubTermM (.machine chk t w cap)) where
  inv p := p.terms.length = L
  dom d := d + 1 < 2 ^ w
  acc _ _ d := d < L
  put s _ d v := ⟨s.terms.set (s.terms.length - d - 1) v⟩
  ok s c d hi _ _ hd ha := by
    show s.trySubTermE (.machine chk t w cap) c d = _
    have h1 : (Env.machine chk t w cap).usz.add d 1 = .ok (d + 1) := USz.add_fits (u := ⟨w, chk⟩) hd
    have hsub : ∀ {a b : Nat}, b ≤ a → (Env.machine chk t w cap).usz.sub a b = .ok (a - b) :=
      fun h => USz.sub_le (u := ⟨w, chk⟩) h
    have hlt : d < s.terms.length := by omega
    unfold Poly.trySubTermE
    rw [h1, Res.ok_bind, if_neg (by omega), if_neg (by omega), Res.ok_bind]
    dsimp only
    rw [hsub (by omega), Res.ok_bind, hsub (by omega), Res.ok_bind, modifyM_eq _ 0 _ _ (by omega),
      neg_one_mul, ← sub_eq_add_neg, coeff_descPoly_of_lt hlt, machine_sub, bind_assoc]
    rfl
  err s c d hi hd ha := by
    show s.trySubTermE (.machine chk t w cap) c d = _
    have h1 : (Env.machine chk t w cap).usz.add d 1 = .ok (d + 1) := USz.add_fits (u := ⟨w, chk⟩) hd
    unfold Poly.trySubTermE
    rw [h1, Res.ok_bind, if_pos ⟨by omega, hs⟩]
  inv_put s c d v hi _ _ := by simpa using hi
  coeff_put s c d v hi _ ha _ n := coeff_descPoly_set s.terms (by omega) v n

/-- `try_sub_term` of a sparse polynomial over an unsigned type: `D` are the degrees with an entry, which stay the
same. -/
def sparseUnsignedSubSink (chk : Bool) (hs : t.signed = false) (D : Nat → Prop) :
    Sink t chk (Sparse Int) (fun p => entriesPoly p.terms.entries) (-1) .canNotNegate
      (MutPolyM.trySubTermM (.machine chk t w cap)) where
  inv p := ∀ d, (p.terms.get d).isSome = true ↔ D d
  dom _ := True
  acc _ c d := c = 0 ∨ D d
  put s c d v := if c = 0 then s else ⟨s.terms.insert d v⟩
  ok s c d hi hin hc _ ha := by
    show s.trySubTermM (.machine chk t) t.canNegate c d = _
    unfold Sparse.trySubTermM
    rw [neg_one_mul, ← sub_eq_add_neg]
    by_cases h0 : c = 0
    · have h1 : t.result chk ((entriesPoly s.terms.entries).coeff d) = .ok ((entriesPoly s.terms.entries).coeff d) := by
        cases chk with
        | true => exact (chk_result t _).1 (hin d)
        | false =>
          have hb : 1 ≤ t.bits ∨ t.bits = 0 := by omega
          rcases hb with hb | hb
          · show Res.ok (t.wrap _) = _
            rw [t.wrap_of_inRange hb _ (hin d)]
          · have h2 := hin d
            show Res.ok (t.wrap _) = _
            simp only [IntTy.InRange, IntTy.min, IntTy.max, hs, hb] at h2
            simp at h2
            have h3 : (entriesPoly s.terms.entries).coeff d = 0 := by omega
            rw [h3, t.wrap_zero]
      rw [if_pos h0, h0, sub_zero, h1, Res.ok_bind, if_pos rfl]
    · have hD := ha.resolve_left h0
      obtain ⟨v, hv⟩ := Option.isSome_iff_exists.1 ((hi d).2 hD)
      rw [if_neg h0, hv, coeff_mapPoly, hv]
      simp only [if_neg h0]
      rfl
  err s c d hi _ ha := by
    show s.trySubTermM (.machine chk t) t.canNegate c d = _
    unfold Sparse.trySubTermM
    have h0 : c ≠ 0 := fun h => ha (.inl h)
    have hv : s.terms.get d = none := by
      cases h : s.terms.get d with
      | none => rfl
      | some v => exact absurd (.inr ((hi d).1 (by rw [h]; rfl))) ha
    have hn : t.canNegate = false := hs
    rw [if_neg h0, hv, hn]; rfl
  inv_put s c d v hi _ ha := by
    intro n
    by_cases h0 : c = 0
    · rw [if_pos h0]; exact hi n
    · rw [if_neg h0]
      have hD := ha.resolve_left h0
      show ((s.terms.insert d v).get n).isSome = true ↔ _
      rw [BMap.get_insert]
      by_cases hn : n = d
      · rw [if_pos hn, hn]; simp [hD]
      · rw [if_neg hn]; exact hi n
  coeff_put s c d v hi _ ha hc n := by
    by_cases h0 : c = 0
    · rw [if_pos h0, hc h0]
      by_cases hn : n = d
      · rw [if_pos hn, hn]
      · rw [if_neg hn]
    · rw [if_neg h0]
      show (entriesPoly (s.terms.insert d v).entries).coeff n = _
      rw [coeff_mapPoly, coeff_mapPoly, BMap.get_insert]
      by_cases hn : n = d
      · rw [if_pos hn, if_pos hn]; rfl
      · rw [if_neg hn, if_neg hn]

/-- `try_sub_term` of a sparse polynomial over a signed type. -/
def sparseSignedSubSink (chk : Bool) (hb : 1 ≤ t.bits) (hs : t.signed = true) :
    Sink t chk (Sparse Int) (fun p => entriesPoly p.terms.entries) (-1) .canNotNegate
      (MutPolyM.trySubTermM (.machine chk t w cap)) where
  inv _ := True
  dom _ := True
  acc _ _ _ := True
  put s c d v := if c = 0 then s else ⟨s.terms.insert d v⟩
  ok s c d hi hin hc _ ha := by
    show s.trySubTermM (.machine chk t) t.canNegate c d = _
    have hn : t.canNegate = true := hs
    unfold Sparse.trySubTermM
    rw [neg_one_mul, ← sub_eq_add_neg, hn]
    by_cases h0 : c = 0
    · have h1 : t.result chk ((entriesPoly s.terms.entries).coeff d) = .ok ((entriesPoly s.terms.entries).coeff d) := by
        cases chk with
        | true => exact (chk_result t _).1 (hin d)
        | false =>
          show Res.ok (t.wrap _) = _
          rw [t.wrap_of_inRange hb _ (hin d)]
      rw [if_pos h0, h0, sub_zero, h1, Res.ok_bind, if_pos rfl]
    · rw [if_neg h0, coeff_mapPoly]
      simp only [if_neg h0]
      cases s.terms.get d with
      | none => rfl
      | some v => rfl
  err s c d hi _ ha := absurd trivial ha
  inv_put _ _ _ _ _ _ _ := trivial
  coeff_put s c d v hi _ ha hc n := by
    by_cases h0 : c = 0
    · rw [if_pos h0, hc h0]
      by_cases hn : n = d
      · rw [if_pos hn, hn]
      · rw [if_neg hn]
    · rw [if_neg h0]
      show (entriesPoly (s.terms.insert d v).entries).coeff n = _
      rw [coeff_mapPoly, coeff_mapPoly, BMap.get_insert]
      by_cases hn : n = d
      · rw [if_pos hn, if_pos hn]; rfl
      · rw [if_neg hn, if_neg hn]

/-- `try_sub_term` of a dense polynomial over a signed type, for degrees with room. -/
def denseSignedSubSink (chk : Bool) (hs : t.signed = true) (hcap : cap < 2 ^ w) :
    Sink t chk (Poly Int) (fun p => descPoly p.terms) (-1) .canNotNegate
      (MutPolyM.trySubTermM (.machine chk t w cap)) where
  inv p := p.terms.length ≤ cap
  dom d := d < cap
  acc _ _ _ := True
  put s _ d v := ⟨((if s.terms.length < d + 1 then List.replicate (d + 1 - s.terms.length) 0 ++ s.terms else s.terms)).set
    ((if s.terms.length < d + 1 then List.replicate (d + 1 - s.terms.length) 0 ++ s.terms else s.terms).length - d - 1) v⟩
  ok s c d hi _ _ hd ha := by
    show s.trySubTermE (.machine chk t w cap) c d = _
    have h1 : (Env.machine chk t w cap).usz.add d 1 = .ok (d + 1) := USz.add_fits (u := ⟨w, chk⟩) (by
      show d + 1 < 2 ^ w; omega)
    have hsub : ∀ {a b : Nat}, b ≤ a → (Env.machine chk t w cap).usz.sub a b = .ok (a - b) :=
      fun h => USz.sub_le (u := ⟨w, chk⟩) h
    have hn : (Env.machine chk t w cap).canNegate = true := hs
    unfold Poly.trySubTermE
    rw [h1, Res.ok_bind, if_neg (by rw [hn]; simp)]
    by_cases hl : s.terms.length < d + 1
    · have hs' : d + 1 - s.terms.length + s.terms.length = d + 1 := by omega
      have hal : (Env.machine chk t w cap).alloc (d + 1) = .ok () := if_pos (by show d + 1 ≤ cap; omega)
      have hlen : (List.replicate (d + 1 - s.terms.length) 0 ++ s.terms : List Int).length = d + 1 := by simp; omega
      simp only [if_pos hl, Res.ok_bind]
      rw [hsub hl.le, Res.ok_bind, hs', hal, Res.ok_bind, hlen, hsub (by omega), Res.ok_bind,
        hsub (by omega), Res.ok_bind, modifyM_eq _ 0 _ _ (by omega), neg_one_mul, ← sub_eq_add_neg, machine_sub, bind_assoc]
      have hc : (List.replicate (d + 1 - s.terms.length) 0 ++ s.terms : List Int).getD (d + 1 - d - 1) 0 =
          (descPoly s.terms).coeff d := by
        rw [coeff_descPoly_of_le (by omega), show d + 1 - d - 1 = 0 by omega]
        obtain ⟨k, hk⟩ : ∃ k, d + 1 - s.terms.length = k + 1 := ⟨d - s.terms.length, by omega⟩
        rw [hk]; rfl
      rw [hc]
      rfl
    · simp only [if_neg hl, Res.ok_bind]
      rw [hsub (by omega), Res.ok_bind, hsub (by omega), Res.ok_bind, modifyM_eq _ 0 _ _ (by omega),
        neg_one_mul, ← sub_eq_add_neg, coeff_descPoly_of_lt (by omega), machine_sub, bind_assoc]
      rfl
  err s c d hi _ ha := absurd trivial ha
  inv_put s c d v hi hd _ := by
    show List.length (List.set _ _ _) ≤ cap
    rw [List.length_set]
    split_ifs
    · simp only [List.length_append, List.length_replicate]; omega
    · exact hi
  coeff_put s c d v hi hd ha _ n := by
    dsimp only
    rw [coeff_descPoly_set _ (by
      split_ifs
      · simp only [List.length_append, List.length_replicate]; omega
      · omega)]
    by_cases hn : n = d
    · rw [if_pos hn, if_pos hn]
    · rw [if_neg hn, if_neg hn]
      split_ifs
      · rw [descPoly_append]; simp
      · rfl

theorem trySubTermE_noroom (chk : Bool) (hs : t.signed = true) (hcap : cap < 2 ^ w) (p : Poly Int) (c : Int) (d : Nat)
    (hp : p.terms.length ≤ cap) (hd : cap ≤ d) (hw : d < 2 ^ w) : p.trySubTermE (.machine chk t w cap) c d = .panic := by
  have hn : (Env.machine chk t w cap).canNegate = true := hs
  unfold Poly.trySubTermE
  by_cases h : d + 1 < 2 ^ w
  · have e1 : (Env.machine chk t w cap).usz.add d 1 = .ok (d + 1) := USz.add_fits (u := ⟨w, chk⟩) h
    rw [e1, Res.ok_bind, if_neg (by rw [hn]; simp), if_pos (by omega), Res.ok_bind]
    have e2 : (Env.machine chk t w cap).usz.sub (d + 1) p.terms.length = .ok (d + 1 - p.terms.length) :=
      USz.sub_le (u := ⟨w, chk⟩) (by omega)
    rw [e2, Res.ok_bind]
    have hs : d + 1 - p.terms.length + p.terms.length = d + 1 := by omega
    have ha : (Env.machine chk t w cap).alloc (d + 1) = .panic := if_neg (by show ¬ d + 1 ≤ cap; omega)
    rw [hs, ha]; rfl
  · have hd1 : d + 1 = 2 ^ w := by omega
    cases chk with
    | true =>
      have e1 : (Env.machine true t w cap).usz.add d 1 = .panic := by
        show USz.add ⟨w, true⟩ d 1 = .panic
        simp [USz.add, USz.result, h]
      rw [e1]; rfl
    | false =>
      have e1 : (Env.machine false t w cap).usz.add d 1 = .ok 0 := by
        show USz.add ⟨w, false⟩ d 1 = .ok 0
        rw [USz.add_wrap, hd1, Nat.mod_self]
      rw [e1, Res.ok_bind, if_neg (by omega), if_neg (by omega), Res.ok_bind]
      obtain ⟨i, h1, h2⟩ := index_max_wrap (w := w) (len := p.terms.length) (d := d) (by omega) hd1
      have h1' : (Env.machine false t w cap).usz.sub p.terms.length d = .ok i := h1
      have h2' : (Env.machine false t w cap).usz.sub i 1 = .ok p.terms.length := h2
      dsimp only
      rw [h1', Res.ok_bind, h2', Res.ok_bind, modifyM_out _ _ _ le_rfl]; rfl

end

/-! ## The lists of terms that are taken -/

section
variable {σ : ℤ} {P : ℤ[X]} {c : ℤ} {d : Nat} {l : List (ℤ × Nat)}

theorem sameDegree_nil : SameDegree σ P [] := by
  intro pre c d h; simp at h

theorem sameDegreeWrap_nil (t : IntTy) : SameDegreeWrap t σ P [] := by
  intro pre c d h; simp at h

theorem sameDegree_cons :
    SameDegree σ P ((c, d) :: l) ↔ (∀ n, n ≠ d → P.coeff n = 0) ∧ SameDegree σ (P + C (σ * c) * X ^ d) l := by
  have key : ∀ pre, P + C σ * termsPoly ((c, d) :: pre) = P + C (σ * c) * X ^ d + C σ * termsPoly pre := by
    intro pre
    rw [termsPoly_cons, C_mul]; ring
  constructor
  · intro h
    refine ⟨fun n hn => by simpa using h [] c d (by simp) n hn, fun pre c' d' hpre n hn => ?_⟩
    rw [← key]
    exact h ((c, d) :: pre) c' d' (by simpa using hpre) n hn
  · rintro ⟨h1, h2⟩ pre c' d' hpre n hn
    cases pre with
    | nil =>
      obtain ⟨hx, _⟩ := List.cons_prefix_cons.1 hpre
      cases hx
      simpa using h1 n hn
    | cons y pre =>
      obtain ⟨rfl, hpre'⟩ := List.cons_prefix_cons.1 hpre
      rw [key]
      exact h2 pre c' d' hpre' n hn

theorem sameDegreeWrap_cons (t : IntTy) :
    SameDegreeWrap t σ P ((c, d) :: l) ↔
      (∀ n, n ≠ d → t.wrap (P.coeff n) = 0) ∧ SameDegreeWrap t σ (P + C (σ * c) * X ^ d) l := by
  have key : ∀ pre, P + C σ * termsPoly ((c, d) :: pre) = P + C (σ * c) * X ^ d + C σ * termsPoly pre := by
    intro pre
    rw [termsPoly_cons, C_mul]; ring
  constructor
  · intro h
    refine ⟨fun n hn => by simpa using h [] c d (by simp) n hn, fun pre c' d' hpre n hn => ?_⟩
    rw [← key]
    exact h ((c, d) :: pre) c' d' (by simpa using hpre) n hn
  · rintro ⟨h1, h2⟩ pre c' d' hpre n hn
    cases pre with
    | nil =>
      obtain ⟨hx, _⟩ := List.cons_prefix_cons.1 hpre
      cases hx
      simpa using h1 n hn
    | cons y pre =>
      obtain ⟨rfl, hpre'⟩ := List.cons_prefix_cons.1 hpre
      rw [key]
      exact h2 pre c' d' hpre' n hn

theorem sameDegreeWrap_congr (t : IntTy) {Q : ℤ[X]} (h : ∀ n, t.wrap (P.coeff n) = t.wrap (Q.coeff n)) :
    SameDegreeWrap t σ P l ↔ SameDegreeWrap t σ Q l := by
  have key : ∀ pre n, t.wrap ((P + C σ * termsPoly pre).coeff n) = t.wrap ((Q + C σ * termsPoly pre).coeff n) := by
    intro pre n
    rw [coeff_add, coeff_add, ← wrap_add_left, h, wrap_add_left]
  unfold SameDegreeWrap
  simp only [key]

theorem monomial_acc (m : Monomial Int) (d : Nat) :
    (m.isZeroPoly = true ∨ d = m.deg) ↔ ∀ n, n ≠ d → m.poly.coeff n = 0 := by
  constructor
  · rintro (h | h) n hn
    · rw [monomial_coeff, monomial_isZeroPoly.1 h, ite_self]
    · rw [monomial_coeff, if_neg (by rw [← h]; exact hn)]
  · intro h
    by_cases h' : d = m.deg
    · exact .inr h'
    · have := h m.deg (Ne.symm h')
      rw [monomial_coeff, if_pos rfl] at this
      exact .inl (monomial_isZeroPoly.2 this)

end
end Rustnomial
