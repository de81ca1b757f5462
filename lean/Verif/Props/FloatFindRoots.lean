import Verif.SpecFloatFindRoots
import Verif.Props.FloatDiv
import Verif.Props.FloatFixed
import Verif.Props.FloatRoots

/-!
# C90: `roots()` in floating point
-/

set_option linter.unusedSectionVars false

open Polynomial

namespace Rustnomial
namespace Fl
variable {f : FlFmt}

/-! ## Deflation -/

/-- The values agree, or both are zeros. -/
def Sim (x y : Fl f) : Prop := x = y ∨ (isZero x = true ∧ isZero y = true)

theorem Sim.isZero_eq {x y : Fl f} (h : Sim x y) : isZero x = isZero y := by
  rcases h with rfl | ⟨h1, h2⟩
  · rfl
  · rw [h1, h2]

theorem Sim.eq {x y : Fl f} (h : Sim x y) (hz : isZero x = false) : x = y := by
  rcases h with h | ⟨h1, _⟩
  · exact h
  · rw [hz] at h1; cases h1

theorem finite_of_isZero {x : Fl f} (h : isZero x = true) : x.isFinite = true := by
  obtain ⟨s, rfl⟩ := isZero_iff.1 h; rfl

theorem toRat_of_isZero {x : Fl f} (h : isZero x = true) : x.toRat = 0 :=
  (isZero_iff_toRat (finite_of_isZero h)).1 h

theorem Sim.toRat {x y : Fl f} (h : Sim x y) : x.toRat = y.toRat ∧ x.isFinite = y.isFinite := by
  rcases h with rfl | ⟨h1, h2⟩
  · exact ⟨rfl, rfl⟩
  · rw [toRat_of_isZero h1, toRat_of_isZero h2, finite_of_isZero h1, finite_of_isZero h2]
    exact ⟨rfl, rfl⟩

/-- Adding a product with a zero changes at most the sign of a zero. -/
theorem sim_add_zero (hp : 1 ≤ f.p) {t r b : Fl f} (ht : t.Valid) (hr : r.isFinite = true) (hb : isZero b = true) :
    Sim t (t + r * b) := by
  obtain ⟨s, rfl⟩ := isZero_iff.1 hb
  obtain ⟨u, a, rfl⟩ := isFinite_iff.1 hr
  have e : (fin u a * fin s 0 : Fl f) = pack (u != s) (roundRat f.p (a * 0) (2 ^ f.q)) := rfl
  rw [e]
  have h0 : roundRat f.p (a * 0) (2 ^ f.q) = 0 := by
    have := roundRat_fits (f := f) hp (a := 0) ⟨0, 0, by positivity, by simp⟩
    unfold roundRat at this ⊢
    simp
  rw [h0, pack, if_pos (by positivity)]
  cases t with
  | nan => exact .inl rfl
  | inf v => exact .inl rfl
  | fin v m =>
    have e2 : (fin v m + fin (u != s) 0 : Fl f) = if v = (u != s) then pack v (roundRat f.p (m + 0) 1)
      else if m = 0 then .fin false 0 else if 0 < m then pack v (roundRat f.p (m - 0) 1)
      else pack (u != s) (roundRat f.p (0 - m) 1) := rfl
    rw [e2]
    by_cases hm : m = 0
    · subst hm
      right
      refine ⟨isZero_iff.2 ⟨_, rfl⟩, ?_⟩
      split
      · have : roundRat f.p (0 + 0) 1 = 0 := roundRat_fits hp ht.1
        rw [this, pack, if_pos (by positivity)]; exact isZero_iff.2 ⟨_, rfl⟩
      · rfl
    · left
      simp only [Nat.add_zero, Nat.sub_zero, roundRat_fits hp ht.1, if_neg hm, if_pos (Nat.pos_of_ne_zero hm)]
      rw [pack, if_pos ht.2]
      simp

theorem firstTerm_zeros {Z : List (Fl f)} (hZ : ∀ z ∈ Z, isZero z = true) (c : Fl f) (T : List (Fl f))
    (hc : isZero c = false) : firstTerm (Z ++ c :: T) = .term c T.length := by
  rw [firstTerm_eq, List.dropWhile_append_of_pos hZ, List.dropWhile_cons, if_neg (by simp [hc])]

theorem firstTerm_zeros' {Z : List (Fl f)} (hZ : ∀ z ∈ Z, isZero z = true) : firstTerm Z = .zeroTerm := by
  rw [firstTerm_eq]
  have : Z.dropWhile isZero = [] := by simpa using hZ
  rw [this]

theorem modify_at {N : Type} (Z : List N) (c : N) (L : List N) (g : N → N) :
    (Z ++ c :: L).modify Z.length g = Z ++ g c :: L := by
  induction Z with
  | nil => simp
  | cons z Z ih => simp [ih]

/-- What `div` does with the values left. -/
def divCont (r : Fl f) (offset fuel : Nat) (values dv : List (Fl f)) : Res (List (Fl f)) :=
  match firstTerm values with
  | .zeroTerm => .ok dv
  | .term c d => divLoop r offset fuel values dv c d

theorem divLoop_step (r : Fl f) (fuel : Nat) (Z D : List (Fl f)) (c t e : Fl f) (T E : List (Fl f))
    (hE : E.length = T.length) :
    divLoop r (D.length + (T.length + 1)) (fuel + 1) (Z ++ c :: t :: T) (D ++ e :: E) c (T.length + 1) =
    divCont r (D.length + (T.length + 1)) fuel (Z ++ (c - 1 * div c 1) :: (t + r * div c 1) :: T)
      (D ++ div c 1 :: E) := by
  rw [divLoop, if_pos (by omega), rdiv_eq, Res.ok_bind]
  have h1 : usub (Z ++ c :: t :: T).length (T.length + 1) = .ok (Z.length + 1) := by
    unfold usub
    simp only [List.length_append, List.length_cons]
    rw [if_pos (by omega)]; congr 1; omega
  rw [h1, Res.ok_bind]
  have h2 : usub (Z.length + 1) 1 = .ok Z.length := by unfold usub; rw [if_pos (by omega)]; rfl
  rw [h2, Res.ok_bind, if_pos (by simp)]
  have h3 : usub (D.length + (T.length + 1)) (T.length + 1) = .ok D.length := by
    unfold usub; rw [if_pos (by omega)]; congr 1; omega
  simp only [h3, Res.ok_bind]
  rw [if_pos (by simp)]
  have e1 : ((Z ++ c :: t :: T).modify Z.length (· - 1 * div c 1)).modify (Z.length + 1) (· + r * div c 1) =
      Z ++ (c - 1 * div c 1) :: (t + r * div c 1) :: T := by
    rw [modify_at, show Z.length + 1 = (Z ++ [c - 1 * div c 1]).length by simp, List.append_cons Z, modify_at]
    simp
  have e2 : (D ++ e :: E).set D.length (div c 1) = D ++ div c 1 :: E := by
    rw [List.set_append_right _ _ le_rfl, Nat.sub_self, List.set_cons_zero]
  rw [e1, e2]
  unfold divCont
  cases firstTerm (Z ++ (c - 1 * div c 1) :: (t + r * div c 1) :: T) <;> rfl

theorem isZero_of_nonfinite {c : Fl f} (h : c.isFinite = false) : isZero c = false := by
  cases c with
  | nan => rfl
  | inf s => rfl
  | fin s m => cases h

/-- An infinite or NaN coefficient above the constant one is never eliminated. -/
theorem divLoop_nonfinite (r : Fl f) (D : List (Fl f)) : ∀ (fuel : Nat) (Z : List (Fl f))
    (_ : ∀ z ∈ Z, isZero z = true) (c t e : Fl f) (T E : List (Fl f)), c.isFinite = false → E.length = T.length →
    divLoop r (D.length + (T.length + 1)) fuel (Z ++ c :: t :: T) (D ++ e :: E) c (T.length + 1) = .fuel := by
  intro fuel
  induction fuel with
  | zero => intros; rfl
  | succ fuel ih =>
    intro Z hZ c t e T E hc hE
    have hn : (c - 1 * div c 1).isFinite = false := by
      by_contra h
      have := (finite_of_sub (by simpa using h)).1
      rw [hc] at this; cases this
    rw [divLoop_step r fuel Z D c t e T E hE]
    unfold divCont
    rw [firstTerm_zeros hZ _ _ (isZero_of_nonfinite hn)]
    exact ih Z hZ _ _ _ _ _ hn hE

theorem synth_length (r : Fl f) : ∀ (T : List (Fl f)) (b : Fl f), (synth r b T).length = T.length
  | [], _ => rfl
  | t :: T, b => by rw [synth, List.length_cons, List.length_cons, synth_length r T]

/-- The loop of `div` is Horner's scheme. -/
theorem divCont_synth (hp : 1 ≤ f.p) (r : Fl f) (hr : r.isFinite = true) : ∀ (T Z D : List (Fl f))
    (b b' : Fl f), (∀ z ∈ Z, isZero z = true) → (∀ t ∈ T, t.Valid) → b'.Valid → Sim b' b →
    ((∀ x ∈ synth r b T, x.isFinite = true) → ∃ Q, List.Forall₂ Sim Q (synth r b T) ∧ (∀ x ∈ Q, x.Valid) ∧
      ∀ fuel, (T.length + 1 ≤ fuel → divCont r (D.length + T.length) fuel (Z ++ b' :: T)
        (D ++ List.replicate T.length 0) = .ok (D ++ Q)) ∧
      (divCont r (D.length + T.length) fuel (Z ++ b' :: T) (D ++ List.replicate T.length 0) = .fuel ∨
        divCont r (D.length + T.length) fuel (Z ++ b' :: T) (D ++ List.replicate T.length 0) = .ok (D ++ Q))) ∧
    (¬ (∀ x ∈ synth r b T, x.isFinite = true) → ∀ fuel,
      divCont r (D.length + T.length) fuel (Z ++ b' :: T) (D ++ List.replicate T.length 0) = .fuel) := by
  intro T
  induction T with
  | nil =>
    intro Z D b b' hZ _ _ _
    refine ⟨fun _ => ⟨[], .nil, by simp, fun fuel => ?_⟩, fun h => absurd (by simp [synth]) h⟩
    by_cases hz : isZero b' = true
    · have : firstTerm (Z ++ [b']) = .zeroTerm := firstTerm_zeros' (by
        intro z hz'
        rcases List.mem_append.1 hz' with h | h
        · exact hZ z h
        · simp at h; rw [h]; exact hz)
      unfold divCont
      rw [this]
      simp
    · have hz : isZero b' = false := by simpa using hz
      unfold divCont
      rw [firstTerm_zeros hZ _ _ hz]
      cases fuel with
      | zero => exact ⟨fun h => by simp at h, .inl rfl⟩
      | succ n =>
        have : divLoop r (D.length + 0) (n + 1) (Z ++ [b']) (D ++ List.replicate 0 0) b' 0 = .ok (D ++ []) := by
          rw [divLoop, if_neg (by omega)]; rfl
        exact ⟨fun _ => this, .inr this⟩
  | cons t T ih =>
    intro Z D b b' hZ hT hb' hs
    have ht : t.Valid := hT t (by simp)
    have hT' : ∀ x ∈ T, x.Valid := fun x hx => hT x (by simp [hx])
    rw [synth]
    by_cases hz : isZero b' = true
    · have hzb : isZero b = true := hs.isZero_eq ▸ hz
      have hbf := finite_of_isZero hzb
      have e1 : Z ++ b' :: t :: T = (Z ++ [b']) ++ t :: T := by simp
      have e2 : D ++ List.replicate (t :: T).length 0 = (D ++ [0]) ++ List.replicate T.length (0 : Fl f) := by
        simp [List.replicate_succ]
      have e3 : D.length + (t :: T).length = (D ++ [(0 : Fl f)]).length + T.length := by simp; omega
      rw [e1, e2, e3]
      have hZ' : ∀ z ∈ Z ++ [b'], isZero z = true := by
        intro z h
        rcases List.mem_append.1 h with h | h
        · exact hZ z h
        · simp at h; rw [h]; exact hz
      obtain ⟨h1, h2⟩ := ih (Z ++ [b']) (D ++ [0]) (t + r * b) t hZ' hT' ht (sim_add_zero hp ht hr hzb)
      refine ⟨fun h => ?_, fun h => h2 fun h' => h (by simpa [hbf] using h')⟩
      obtain ⟨Q, h3, h4, h5⟩ := h1 fun x hx => h x (by simp [hx])
      refine ⟨0 :: Q, .cons (.inr ⟨rfl, hzb⟩) h3, ?_, fun fuel => ?_⟩
      · intro x hx
        rcases List.mem_cons.1 hx with rfl | hx
        · exact valid_zero_mag f false
        · exact h4 x hx
      · rw [List.append_cons D 0 Q]
        refine ⟨fun h => (h5 fuel).1 (by simp at h; omega), (h5 fuel).2⟩
    · have hz : isZero b' = false := by simpa using hz
      have hbb := hs.eq hz
      subst hbb
      by_cases hbf : b'.isFinite = true
      · have hsub : ∀ n, divCont r (D.length + (t :: T).length) (n + 1) (Z ++ b' :: t :: T)
            (D ++ List.replicate (t :: T).length 0) =
            divCont r ((D ++ [b']).length + T.length) n ((Z ++ [b' - 1 * div b' 1]) ++ (t + r * b') :: T)
              ((D ++ [b']) ++ List.replicate T.length 0) := by
          intro n
          have h := divLoop_step r n Z D b' t 0 T (List.replicate T.length 0) (by simp)
          rw [divCont, firstTerm_zeros hZ _ _ hz]
          simp only
          rw [List.length_cons, List.replicate_succ, h, div_one' hp hb' hbf]
          simp [Nat.add_assoc, Nat.add_comm 1]
        have h0 : divCont r (D.length + (t :: T).length) 0 (Z ++ b' :: t :: T)
            (D ++ List.replicate (t :: T).length 0) = .fuel := by
          rw [divCont, firstTerm_zeros hZ _ _ hz]; rfl
        have hZ' : ∀ z ∈ Z ++ [b' - 1 * div b' 1], isZero z = true := by
          intro z h
          rcases List.mem_append.1 h with h | h
          · exact hZ z h
          · simp only [List.mem_singleton] at h; rw [h]; exact lead_one hp hb' hbf
        obtain ⟨h1, h2⟩ := ih (Z ++ [b' - 1 * div b' 1]) (D ++ [b']) (t + r * b') (t + r * b') hZ' hT'
          (C65_closed hp _ _).1 (.inl rfl)
        refine ⟨fun h => ?_, fun h fuel => ?_⟩
        · obtain ⟨Q, h3, h4, h5⟩ := h1 fun x hx => h x (by simp [hx])
          refine ⟨b' :: Q, .cons (.inl rfl) h3, ?_, fun fuel => ?_⟩
          · intro x hx
            rcases List.mem_cons.1 hx with rfl | hx
            · exact hb'
            · exact h4 x hx
          · cases fuel with
            | zero => exact ⟨fun h => by simp at h, .inl h0⟩
            | succ n =>
              rw [hsub, List.append_cons D b' Q]
              exact ⟨fun h => (h5 n).1 (by simp at h; omega), (h5 n).2⟩
        · cases fuel with
          | zero => exact h0
          | succ n => rw [hsub]; exact h2 (fun h' => h (by simpa [hbf] using h')) n
      · have hbf : b'.isFinite = false := by simpa using hbf
        refine ⟨fun h => ?_, fun _ fuel => ?_⟩
        · have := h b' (by simp)
          rw [hbf] at this; cases this
        · rw [divCont, firstTerm_zeros hZ _ _ hz]
          simp only
          rw [List.length_cons, List.replicate_succ]
          exact divLoop_nonfinite r D fuel Z hZ b' t 0 T _ hbf (by simp)

theorem divRoot_eq (fuel : Nat) (r a : Fl f) (as : List (Fl f)) (ha : isZero a = false) (h2 : 2 ≤ as.length) :
    divRoot fuel (a :: as) r = divCont r (([] : List (Fl f)).length + as.length) fuel ([] ++ a :: as)
      ([] ++ List.replicate as.length 0) := by
  have hf := firstTerm_zeros (Z := []) (by simp) a as ha
  rw [divCont, hf]
  rw [List.nil_append] at hf ⊢
  obtain ⟨b, c, l, rfl⟩ : ∃ b c l, as = b :: c :: l := by
    rcases as with _ | ⟨b, _ | ⟨c, l⟩⟩
    · simp at h2
    · simp at h2
    · exact ⟨b, c, l, rfl⟩
  unfold divRoot
  rw [hf]
  simp

/-- C90: `div` (src/polynomial/find_roots.rs 118-151) of a polynomial of degree at least two with non-zero leading
coefficient by `x - r` is Horner's scheme, up to the signs of zeros: it returns, after as many rounds as the degree,
if all coefficients of the quotient are finite, and loops for ever otherwise. -/
theorem C90_deflation (hp : 1 ≤ f.p) (r a : Fl f) (as : List (Fl f)) (hr : r.isFinite = true)
    (ha : isZero a = false) (hv : ∀ c ∈ a :: as, c.Valid) (h2 : 2 ≤ as.length) :
    ((∀ b ∈ synth r a as, b.isFinite = true) → ∃ Q, (∀ fuel, as.length + 1 ≤ fuel → divRoot fuel (a :: as) r = .ok Q) ∧
      Q.map toRat = (synth r a as).map toRat ∧ ∀ b ∈ Q, b.isFinite = true) ∧
    (¬ (∀ b ∈ synth r a as, b.isFinite = true) → ∀ fuel, divRoot fuel (a :: as) r = .fuel) := by
  have key := divCont_synth hp r hr as [] [] a a (by simp) (fun t ht => hv t (by simp [ht])) (hv a (by simp)) (.inl rfl)
  constructor
  · intro h
    obtain ⟨Q, h1, hQ, h3⟩ := key.1 h
    refine ⟨Q, fun fuel hf => ?_, ?_⟩
    · rw [divRoot_eq fuel r a as ha h2]
      exact (h3 fuel).1 hf
    · clear h3 key hQ
      generalize synth r a as = m at h h1 ⊢
      induction h1 with
      | nil => simp
      | cons hs _ ih =>
        rename_i x y l m _
        obtain ⟨i1, i2⟩ := ih (fun b hb => h b (by simp [hb]))
        refine ⟨by rw [List.map_cons, List.map_cons, i1, hs.toRat.1], ?_⟩
        intro b hb
        rcases List.mem_cons.1 hb with rfl | hb
        · rw [hs.toRat.2]; exact h _ (by simp)
        · exact i2 b hb
  · intro h fuel
    rw [divRoot_eq fuel r a as ha h2]
    exact key.2 h fuel

theorem zero_add' (hp : 1 ≤ f.p) {a : Fl f} (hv : a.Valid) (hz : isZero a = false) : 0 + a = a := by
  have h := sim_add_zero hp hv (r := 0) (b := 0) rfl rfl
  have h0 : (0 * 0 : Fl f) = 0 := by
    show pack _ (roundRat f.p (0 * 0) (2 ^ f.q)) = _
    have : roundRat f.p (0 * 0) (2 ^ f.q) = 0 := by
      unfold roundRat
      simp
    rw [this, pack, if_pos (by positivity)]
    rfl
  rw [h0] at h
  rw [add_comm']
  exact (h.eq hz).symm

theorem synth_fold (r : Fl f) : ∀ (T : List (Fl f)) (k : Nat) (b s c : Fl f), s + c = b → k < T.length →
    ∃ x, (synth r b T)[k]? = some x ∧ ∃ last, (c :: T.take k).getLast? = some last ∧
      x = (c :: T.take k).dropLast.foldl (fun sum val => (sum + val) * r) s + last
  | [], _, _, _, _, _, h => by simp at h
  | t :: T, 0, b, s, c, h, _ => ⟨b, rfl, c, by simp, by simp [h]⟩
  | t :: T, k + 1, b, s, c, h, hk => by
    obtain ⟨x, h1, l, h2, h3⟩ := synth_fold r T k (t + r * b) ((s + c) * r) t (by rw [h, add_comm', mul_comm'])
      (by simpa using hk)
    refine ⟨x, by rw [synth, List.getElem?_cons_succ, h1], l, by rw [List.take_succ_cons, List.getLast?_cons_cons, h2], ?_⟩
    rw [List.take_succ_cons, List.dropLast_cons_of_ne_nil (by simp), List.foldl_cons, h3]

/-- C90: the `k`-th coefficient of Horner's scheme is what `eval` computes for the polynomial of the first
`k + 1` coefficients, so that C66 bounds its error. -/
theorem C90_deflation_eval (hp : 1 ≤ f.p) (r a : Fl f) (as : List (Fl f)) (ha : isZero a = false) (hav : a.Valid)
    (hr : isZero r = false) (k : Nat) (hk : k < as.length) :
    (synth r a as)[k]? = some ((⟨(a :: as).take (k + 1)⟩ : Poly (Fl f)).eval r) := by
  obtain ⟨x, h1, l, h2, h3⟩ := synth_fold r as k a 0 a (zero_add' hp hav ha) hk
  rw [h1, List.take_succ_cons]
  unfold Poly.eval
  simp only [h2, hr, Bool.false_eq_true, if_false]
  rw [h3]

/-! ## The loop -/

/-- A run with bounded fuel: it returns a value with the property `P` as soon as there is enough fuel and nothing
else before, or it never returns; the latter only if `may` holds. -/
def Runs {ι α : Type} (may : Prop) (enough : ι → Prop) (P : α → Prop) (g : ι → Res α) : Prop :=
  (∃ a, P a ∧ (∀ i, enough i → g i = .ok a) ∧ ∀ i, g i = .fuel ∨ g i = .ok a) ∨ (may ∧ ∀ i, g i = .fuel)

theorem Runs.pure {ι α : Type} {may : Prop} {enough : ι → Prop} {P : α → Prop} {a : α} (h : P a) :
    Runs may enough P (fun _ => .ok a) := .inl ⟨a, h, fun _ _ => rfl, fun _ => .inr rfl⟩

theorem Runs.bind {ι α β : Type} {may : Prop} {e1 e2 : ι → Prop} {P : α → Prop} {P' : β → Prop} {g : ι → Res α}
    {k : ι → α → Res β} (h : Runs may e1 P g) (hk : ∀ a, P a → Runs may e2 P' (fun i => k i a)) :
    Runs may (fun i => e1 i ∧ e2 i) P' (fun i => g i >>= k i) := by
  rcases h with ⟨a, ha, h1, h2⟩ | ⟨hm, h⟩
  · rcases hk a ha with ⟨b, hb, h3, h4⟩ | ⟨hm, h⟩
    · refine .inl ⟨b, hb, fun i hi => ?_, fun i => ?_⟩
      · dsimp only; rw [h1 i hi.1, Res.ok_bind]; exact h3 i hi.2
      · dsimp only
        rcases h2 i with h | h
        · exact .inl (by rw [h]; rfl)
        · rw [h, Res.ok_bind]; exact h4 i
    · refine .inr ⟨hm, fun i => ?_⟩
      dsimp only
      rcases h2 i with h' | h'
      · rw [h']; rfl
      · rw [h', Res.ok_bind]; exact h i
  · exact .inr ⟨hm, fun i => by dsimp only; rw [h i]; rfl⟩

theorem Runs.mono {ι α : Type} {may : Prop} {e1 e2 : ι → Prop} {P P' : α → Prop} {g : ι → Res α}
    (h : Runs may e1 P g) (he : ∀ i, e2 i → e1 i) (hP : ∀ a, P a → P' a) : Runs may e2 P' g := by
  rcases h with ⟨a, ha, h1, h2⟩ | h
  · exact .inl ⟨a, hP a ha, fun i hi => h1 i (he i hi), h2⟩
  · exact .inr h

theorem Runs.comap {ι κ α : Type} {may : Prop} {e : ι → Prop} {P : α → Prop} {g : ι → Res α} (h : Runs may e P g)
    (t : κ → ι) : Runs may (fun i => e (t i)) P (fun i => g (t i)) := by
  rcases h with ⟨a, ha, h1, h2⟩ | ⟨hm, h⟩
  · exact .inl ⟨a, ha, fun i hi => h1 _ hi, fun i => h2 _⟩
  · exact .inr ⟨hm, fun i => h _⟩

/-- `L + 1` coefficients, the first not zero. -/
def Lead (L : Nat) (nv : List (Fl f)) : Prop :=
  ∃ n0 ns, nv = n0 :: ns ∧ isZero n0 = false ∧ ns.length = L ∧ ∀ c ∈ nv, c.Valid

/-- The first coefficient is finite. -/
def HeadFinite (nv : List (Fl f)) : Prop := ∃ n0 ns, nv = n0 :: ns ∧ n0.isFinite = true

theorem divRoot_nil (fuel : Nat) (r : Fl f) : divRoot fuel [] r = .ok [] := rfl

theorem divRoot_linear (fuel : Nat) (r a b : Fl f) (ha : isZero a = false) : divRoot fuel [a, b] r = .ok [] := by
  unfold divRoot
  have := firstTerm_zeros (Z := []) (by simp) a [b] ha
  rw [List.nil_append] at this
  rw [this]
  rfl

/-- What the loop needs to know about one deflation: an invariant `J` of the degree and the coefficients kept by
every root with the property `R`. -/
structure Defl (may : Prop) (J : Nat → List (Fl f) → Prop) (R : Fl f → Prop) : Prop where
  div : ∀ L nv r, 2 ≤ L → Lead L nv → J L nv → R r →
    Runs may (fun fuel => L + 1 ≤ fuel) (fun Q => Lead (L - 1) Q ∧ HeadFinite Q ∧ J (L - 1) Q)
      (fun fuel => divRoot fuel nv r)
  norm : ∀ L n0 ns, Lead L (n0 :: ns) → n0.isFinite = true → J L (n0 :: ns) →
    J L ((n0 :: ns).map fun c => Fl.div c n0)

theorem deflate_nil (rnd eval : Fl f → Fl f) (fuel : Nat) : ∀ temp roots : List (Fl f),
    deflate rnd eval fuel temp roots [] = .ok (roots ++ temp.map (pickRoot rnd eval), [])
  | [], roots => by simp [deflate]
  | r :: rest, roots => by
    rw [deflate]
    simp only [divRoot_nil, Res.ok_bind]
    rw [deflate_nil rnd eval fuel rest]
    simp

theorem deflate_runs {may : Prop} {J : Nat → List (Fl f) → Prop} {R : Fl f → Prop} (h : Defl may J R)
    (rnd eval : Fl f → Fl f) : ∀ (temp roots nv : List (Fl f)) (L : Nat), 1 ≤ L → Lead L nv → J L nv →
    (∀ z ∈ temp, R (pickRoot rnd eval z)) →
    Runs may (fun fuel => L + 1 ≤ fuel) (fun out => out.1 = roots ++ temp.map (pickRoot rnd eval) ∧
      ((L ≤ temp.length ∧ out.2 = []) ∨ (temp.length < L ∧ Lead (L - temp.length) out.2 ∧
        (temp ≠ [] ∨ HeadFinite nv → HeadFinite out.2) ∧ J (L - temp.length) out.2)))
      (fun fuel => deflate rnd eval fuel temp roots nv) := by
  intro temp
  induction temp with
  | nil =>
    intro roots nv L hL hl hJ _
    exact Runs.pure (a := (roots, nv)) ⟨by simp, .inr ⟨by simp; omega, by simpa using hl, by simp, by simpa using hJ⟩⟩
  | cons z rest ih =>
    intro roots nv L hL hl hJ hR
    have e : ∀ fuel, deflate rnd eval fuel (z :: rest) roots nv =
        (divRoot fuel nv (pickRoot rnd eval z) >>= fun nv' => deflate rnd eval fuel rest
          (roots ++ [pickRoot rnd eval z]) nv') := fun fuel => rfl
    simp only [e]
    by_cases h2 : 2 ≤ L
    · refine Runs.mono (Runs.bind (h.div L nv _ h2 hl hJ (hR z (by simp)))
        (e2 := fun fuel => L - 1 + 1 ≤ fuel) (P' := fun out => out.1 = roots ++ (z :: rest).map (pickRoot rnd eval) ∧
          ((L ≤ (z :: rest).length ∧ out.2 = []) ∨ ((z :: rest).length < L ∧ Lead (L - (z :: rest).length) out.2 ∧
            HeadFinite out.2 ∧ J (L - (z :: rest).length) out.2)))
        (fun Q hQ => Runs.mono (ih (roots ++ [pickRoot rnd eval z]) Q (L - 1) (by omega) hQ.1 hQ.2.2
          (fun y hy => hR y (by simp [hy]))) (fun _ h => h) (fun out ho => ?_)))
        (fun fuel h => ⟨h, by omega⟩) (fun out ho => ⟨ho.1, ?_⟩)
      · refine ⟨by rw [ho.1]; simp, ?_⟩
        have e1 : L - (z :: rest).length = L - 1 - rest.length := by simp; omega
        rw [e1]
        rcases ho.2 with ⟨h1, h3⟩ | ⟨h1, h3, h4, h5⟩
        · exact .inl ⟨by simp; omega, h3⟩
        · exact .inr ⟨by simp; omega, h3, h4 (.inr hQ.2.1), h5⟩
      · rcases ho.2 with h | ⟨h1, h2, h3, h4⟩
        · exact .inl h
        · exact .inr ⟨h1, h2, fun _ => h3, h4⟩
    · have hL1 : L = 1 := by omega
      subst hL1
      obtain ⟨n0, ns, rfl, hz, hn, _⟩ := hl
      obtain ⟨b, rfl⟩ := List.length_eq_one_iff.1 hn
      simp only [divRoot_linear _ _ _ _ hz, Res.ok_bind, deflate_nil]
      exact Runs.pure ⟨by simp, .inl ⟨by simp, rfl⟩⟩

theorem mapM_div (d : Fl f) : ∀ l : List (Fl f), l.mapM (fun v => rdiv v d) = .ok (l.map fun c => Fl.div c d)
  | [] => rfl
  | c :: l => by
    rw [List.mapM_cons, mapM_div d l, rdiv_eq]
    rfl

theorem normalize_eq {n0 : Fl f} (ns : List (Fl f)) (hz : isZero n0 = false) :
    normalize (n0 :: ns) = .ok ((n0 :: ns).map fun c => Fl.div c n0) := by
  have h0 : firstNonzeroIndex (n0 :: ns) = 0 := by
    rw [firstNonzeroIndex_eq, List.findIdx_cons]; simp [hz]
  unfold normalize
  simp only [h0, List.drop_zero, List.take_zero, List.nil_append]
  rw [mapM_div, Res.ok_bind]

theorem div_self' (hp : 1 ≤ f.p) (hw : f.q < f.w) {c : Fl f} (hc : c.isFinite = true) (hz : isZero c = false) :
    Fl.div c c = 1 := by
  obtain ⟨s, a, rfl⟩ := isFinite_iff.1 hc
  have ha : a ≠ 0 := by
    rintro rfl
    rw [isZero_iff.2 ⟨s, rfl⟩] at hz; cases hz
  simp only [div, if_neg ha]
  have := roundRat_scale (p := f.p) (num := 2 ^ f.q) (den := 1) (c := a) (Nat.pos_of_ne_zero ha)
  rw [one_mul, mul_comm] at this
  rw [this, roundRat_fits hp ⟨1, f.q, Nat.one_lt_two_pow (by omega), by simp⟩, pack,
    if_pos (Nat.pow_lt_pow_right one_lt_two hw)]
  simp
  rfl

/-- The answers of the root finder on a polynomial of degree `deg` after the roots found so far. -/
def Answer (oracle : List (Fl f) → List (Fl f)) (rnd eval : Fl f → Fl f) (deg : Nat) (tail roots : List (Fl f))
    (out : Roots (Fl f)) : Prop :=
  (roots = [] ∧ oracle tail = [] ∧ out = .noRoots) ∨
  ∃ rs, rs ≠ [] ∧ (roots ≠ [] ∨ oracle tail ≠ []) ∧
    (∀ r ∈ rs, r ∈ roots ∨ ∃ l, ∃ z ∈ oracle l, r = pickRoot rnd eval z) ∧
    ((rs.length < deg ∧ out = .onlyRealRoots rs) ∨ (deg ≤ rs.length ∧ out = .manyRealRoots rs)) ∧
    SolverRun oracle (pickRoot rnd eval) deg tail roots out

theorem loop_runs (hp : 1 ≤ f.p) (hw : f.q < f.w) {may : Prop} {J : Nat → List (Fl f) → Prop} {R : Fl f → Prop}
    (h : Defl may J R) (oracle : List (Fl f) → List (Fl f)) (rnd eval : Fl f → Fl f) (deg : Nat)
    (hR : ∀ l, l.length ≤ deg → ∀ z ∈ oracle l, R (pickRoot rnd eval z)) : ∀ (L : Nat) (values nv roots : List (Fl f)),
    1 ≤ L → values.length = L + 1 → Lead L nv → J L nv → roots.length + L = deg →
    Runs may (fun i : Nat × Nat => L + 1 ≤ i.1 ∧ L + 1 ≤ i.2) (Answer oracle rnd eval deg values.tail roots)
      (fun i => findRootsLoop oracle rnd eval (.num deg) i.1 i.2 values nv roots) := by
  intro L
  induction L using Nat.strong_induction_on with
  | _ L ih =>
    intro values nv roots hL hvl hl hJ hlen
    have key : Runs may (fun i : Nat × Nat => L + 1 ≤ i.1 ∧ L ≤ i.2) (Answer oracle rnd eval deg values.tail roots)
      (fun i => findRootsLoop oracle rnd eval (.num deg) i.1 (i.2 + 1) values nv roots) := by
      have hs : sliceFrom values 1 = .ok values.tail := by
        unfold sliceFrom
        rw [if_pos (by omega)]
        simp
      by_cases ht : oracle values.tail = []
      · have : ∀ i : Nat × Nat, findRootsLoop oracle rnd eval (.num deg) i.1 (i.2 + 1) values nv roots =
            .ok (if roots = [] then .noRoots else .onlyRealRoots roots) := by
          intro i
          rw [findRootsLoop, hs, Res.ok_bind]
          simp only [ht, List.isEmpty_nil, if_true, List.length_nil]
          rw [if_neg (by omega)]
          by_cases hr : roots = []
          · simp [hr]
          · rw [if_neg (by simpa using hr), if_neg hr]
        simp only [this]
        refine Runs.pure ?_
        by_cases hr : roots = []
        · rw [if_pos hr]; exact .inl ⟨hr, ht, rfl⟩
        · rw [if_neg hr]
          exact .inr ⟨roots, hr, .inl hr, fun r h => .inl h, .inl ⟨by omega, rfl⟩, .only ht hr⟩
      · have e : ∀ i : Nat × Nat, findRootsLoop oracle rnd eval (.num deg) i.1 (i.2 + 1) values nv roots =
            (deflate rnd eval i.1 (oracle values.tail) roots nv >>= fun x =>
              if x.2.isEmpty then (if x.1.isEmpty then .ok .noRoots else .ok (.manyRealRoots x.1))
              else normalize x.2 >>= fun nv' => match nv' with
                | [] => .panic
                | leading :: _ => nv'.mapM (fun v => rdiv v leading) >>= fun values' =>
                  findRootsLoop oracle rnd eval (.num deg) i.1 i.2 values' nv' x.1) := by
          intro i
          rw [findRootsLoop, hs, Res.ok_bind]
          simp only
          rw [if_neg (by simpa using ht)]
          congr 1
          funext x
          obtain ⟨x1, x2⟩ := x
          simp only
          split
          · rfl
          · congr 1
            funext nv'
            cases nv' <;> rfl
        simp only [e]
        have hd := (deflate_runs h rnd eval (oracle values.tail) roots nv L hL hl hJ
          (hR values.tail (by rw [List.length_tail]; omega))).comap (fun i : Nat × Nat => i.1)
        refine Runs.mono (Runs.bind hd (e2 := fun i => L + 1 ≤ i.1 ∧ L ≤ i.2)
          (P' := Answer oracle rnd eval deg values.tail roots) ?_) (fun i hi => ⟨hi.1, hi⟩) (fun _ h => h)
        rintro ⟨rs, nv'⟩ ⟨h1, h2⟩
        simp only at h1 h2 ⊢
        have hrs : rs ≠ [] := by
          rw [h1]; simp [ht]
        have hmem : ∀ r ∈ rs, r ∈ roots ∨ ∃ l, ∃ z ∈ oracle l, r = pickRoot rnd eval z := by
          intro r hr
          rw [h1] at hr
          rcases List.mem_append.1 hr with hr | hr
          · exact .inl hr
          · obtain ⟨z, hz, rfl⟩ := List.mem_map.1 hr
            exact .inr ⟨_, z, hz, rfl⟩
        have hrl : rs.length = roots.length + (oracle values.tail).length := by rw [h1]; simp
        have htl : 1 ≤ (oracle values.tail).length := List.length_pos_iff.2 ht
        rcases h2 with ⟨h3, h4⟩ | ⟨h3, h4, h5, h6⟩
        · simp only [h4, List.isEmpty_nil, if_true]
          rw [if_neg (by simpa using hrs)]
          exact Runs.pure (.inr ⟨rs, hrs, .inr ht, hmem, .inr ⟨by omega, rfl⟩, by
            subst h1; exact .all ht (by omega)⟩)
        · obtain ⟨n0, ns, rfl, hz, hns, hval⟩ := h4
          obtain ⟨_, _, he, hfin⟩ := h5 (.inl ht)
          cases he
          simp only [List.isEmpty_cons, Bool.false_eq_true, if_false]
          rw [normalize_eq ns hz]
          simp only [Res.ok_bind, List.map_cons]
          have hone : isZero (Fl.div n0 n0) = false := by
            rw [div_self' hp hw hfin hz]
            refine (toRat_ne_zero rfl).2 ?_
            rw [toRat_one]; norm_num
          have hJ' := h.norm _ n0 ns ⟨n0, ns, rfl, hz, hns, hval⟩ hfin h6
          simp only [mapM_div, Res.ok_bind]
          refine Runs.mono (ih (L - (oracle values.tail).length) (by omega) _
            (Fl.div n0 n0 :: ns.map fun c => Fl.div c n0) rs (by omega) (by simp [hns])
            ⟨_, _, rfl, hone, by simpa using hns, ?_⟩ hJ' (by omega)) ?_ ?_
          · intro c hc
            rw [← List.map_cons (f := fun c => Fl.div c n0)] at hc
            obtain ⟨y, _, rfl⟩ := List.mem_map.1 hc
            exact (C65_closed hp _ _).2.2.2.1
          · rintro i ⟨h8, h9⟩; constructor <;> omega
          · rintro out (⟨h8, _⟩ | ⟨rs', h8, _, h9, h10, h11⟩)
            · exact absurd h8 hrs
            · refine .inr ⟨rs', h8, .inr ht, fun r hr => ?_, h10, ?_⟩
              · rcases h9 r hr with h | h
                · exact hmem r h
                · exact .inr h
              · subst h1
                exact .more ht (by simp [hns]; omega) (by simp [hns] at hrl ⊢; omega) h11
    rcases key with ⟨a, ha, h1, h2⟩ | ⟨hm, h1⟩
    · refine .inl ⟨a, ha, ?_, ?_⟩
      · rintro ⟨i, j⟩ ⟨h3, h4⟩
        cases j with
        | zero => simp at h4
        | succ j => exact h1 (i, j) ⟨h3, by simpa using h4⟩
      · rintro ⟨i, j⟩
        cases j with
        | zero => exact .inl rfl
        | succ j => exact h2 (i, j)
    · refine .inr ⟨hm, ?_⟩
      rintro ⟨i, j⟩
      cases j with
      | zero => rfl
      | succ j => exact h1 (i, j)

/-! ## Deflation by any root -/

theorem mul_nonfinite {r b : Fl f} (hr : r.isFinite = false) : (r * b).isFinite = false := by
  by_contra h
  have := (finite_of_mul (by simpa using h)).1
  rw [hr] at this; cases this

theorem add_nonfinite {a b : Fl f} (hb : b.isFinite = false) : (a + b).isFinite = false := by
  by_contra h
  have := (finite_of_add (by simpa using h)).2
  rw [hb] at this; cases this

/-- `div` by `x - r` for any `r`. -/
theorem div_runs (hp : 1 ≤ f.p) (r n0 : Fl f) (ns : List (Fl f)) (L : Nat) (h2 : 2 ≤ L) (hl : Lead L (n0 :: ns)) :
    Runs (¬ (r.isFinite = true ∧ ∀ x ∈ synth r n0 ns, x.isFinite = true)) (fun fuel => L + 1 ≤ fuel)
      (fun Q => Lead (L - 1) Q ∧ HeadFinite Q ∧ List.Forall₂ Sim Q (synth r n0 ns) ∧
        (∀ x ∈ Q, x.isFinite = true) ∧ Q.head? = some n0)
      (fun fuel => divRoot fuel (n0 :: ns) r) := by
  obtain ⟨_, _, he, hz, hns, hv⟩ := hl
  cases he
  simp only [divRoot_eq _ r n0 ns hz (by omega)]
  by_cases hr : r.isFinite = true
  · have key := divCont_synth hp r hr ns [] [] n0 n0 (by simp) (fun t ht => hv t (by simp [ht])) (hv n0 (by simp)) (.inl rfl)
    by_cases hf : ∀ x ∈ synth r n0 ns, x.isFinite = true
    · obtain ⟨Q, h1, hQ, h3⟩ := key.1 hf
      have hQf : ∀ x ∈ Q, x.isFinite = true := by
        clear h3 hQ key
        generalize synth r n0 ns = m at hf h1
        induction h1 with
        | nil => simp
        | cons hs _ ih =>
          intro x hx
          rcases List.mem_cons.1 hx with rfl | hx
          · rw [hs.toRat.2]; exact hf _ (by simp)
          · exact ih (fun x hx => hf x (by simp [hx])) x hx
      have hQl : Q.length = L := by rw [h1.length_eq, synth_length, hns]
      obtain ⟨t, T, rfl⟩ : ∃ t T, ns = t :: T := by
        cases ns with
        | nil => simp at hns; omega
        | cons t T => exact ⟨t, T, rfl⟩
      cases Q with
      | nil => simp at hQl; omega
      | cons q Q =>
        have hq : q = n0 := by
          rw [synth] at h1
          cases h1 with
          | cons hs _ =>
            refine hs.eq ?_
            rw [hs.isZero_eq, hz]
        subst hq
        exact .inl ⟨q :: Q, ⟨⟨q, Q, rfl, hz, by simp at hQl; omega, hQ⟩, ⟨q, Q, rfl, hQf q (by simp)⟩, h1, hQf, rfl⟩,
          fun fuel hfu => (h3 fuel).1 (by omega), fun fuel => (h3 fuel).2⟩
    · exact .inr ⟨fun h => hf h.2, key.2 hf⟩
  · refine .inr ⟨fun h => hr h.1, ?_⟩
    have hr : r.isFinite = false := by simpa using hr
    obtain ⟨t, t2, T, rfl⟩ : ∃ t t2 T, ns = t :: t2 :: T := by
      rcases ns with _ | ⟨t, _ | ⟨t2, T⟩⟩
      · simp at hns; omega
      · simp at hns; omega
      · exact ⟨t, t2, T, rfl⟩
    intro fuel
    show divCont _ _ _ _ _ = _
    rw [divCont, firstTerm_zeros (by simp) _ _ hz]
    simp only
    cases fuel with
    | zero => rfl
    | succ fuel =>
      by_cases hn : n0.isFinite = true
      · refine (divLoop_step r fuel [] [] n0 t 0 (t2 :: T) (0 :: List.replicate T.length 0) (by simp)).trans ?_
        have hs : (t + r * div n0 1).isFinite = false := by
          rw [div_one' hp (hv n0 (by simp)) hn]
          exact add_nonfinite (mul_nonfinite hr)
        have hz1 := lead_one hp (hv n0 (by simp)) hn
        rw [divCont, List.append_cons, firstTerm_zeros (by simpa using hz1) _ _ (isZero_of_nonfinite hs)]
        simp only
        have := divLoop_nonfinite r [div n0 1] fuel ([] ++ [n0 - 1 * div n0 1]) (by simpa using hz1)
          (t + r * div n0 1) t2 0 T (List.replicate T.length 0) hs (by simp)
        simpa [List.replicate_succ, Nat.add_comm] using this
      · have := divLoop_nonfinite r [] (fuel + 1) [] (by simp) n0 t 0 (t2 :: T) (List.replicate (t2 :: T).length 0)
          (by simpa using hn) (by simp)
        simpa [List.replicate_succ] using this

/-- Nothing is known about the roots: the loop may run for ever. -/
theorem defl_any (hp : 1 ≤ f.p) : Defl (f := f) True (fun _ _ => True) (fun _ => True) where
  div := by
    intro L nv r h2 hl _ _
    obtain ⟨n0, ns, rfl, _⟩ := id hl
    have := div_runs hp r n0 ns L h2 hl
    rcases this with ⟨a, ha, h1, h3⟩ | ⟨_, h⟩
    · exact .inl ⟨a, ⟨ha.1, ha.2.1, trivial⟩, h1, h3⟩
    · exact .inr ⟨trivial, h⟩
  norm := fun _ _ _ _ _ _ => trivial

/-! ## Bounded coefficients and roots -/

theorem le_of_nearest {x y B : ℚ} (hx : |x| ≤ B) (h1 : |y - x| ≤ |B - x|) (h2 : |y - x| ≤ |-B - x|) : |y| ≤ B := by
  rw [abs_le] at hx
  rw [abs_of_nonneg (by linarith : 0 ≤ B - x)] at h1
  rw [abs_of_nonpos (by linarith : -B - x ≤ 0)] at h2
  rw [abs_le] at h1 h2 ⊢
  constructor <;> linarith

theorem pow_le_maxFinite {e : Nat} (hp : 1 ≤ f.p) (hw : f.p ≤ f.w) (he : e + f.q < f.w) : (2 : ℚ) ^ e ≤ maxFinite f := by
  unfold maxFinite
  rw [le_div_iff₀ (by positivity), ← pow_add]
  have h1 : (2 : Nat) ^ (e + f.q) ≤ (2 ^ f.p - 1) * 2 ^ (f.w - f.p) := by
    have h2 : 2 ^ (f.p - 1) ≤ 2 ^ f.p - 1 := by
      have : 2 ^ f.p = 2 * 2 ^ (f.p - 1) := by rw [← pow_succ']; congr 1; omega
      have := Nat.one_le_two_pow (n := f.p - 1)
      omega
    calc 2 ^ (e + f.q) ≤ 2 ^ (f.p - 1 + (f.w - f.p)) := Nat.pow_le_pow_right (by norm_num) (by omega)
      _ = 2 ^ (f.p - 1) * 2 ^ (f.w - f.p) := by rw [pow_add]
      _ ≤ _ := Nat.mul_le_mul_right _ h2
  exact_mod_cast h1

/-- `2^e` and `-2^e`. -/
theorem pow_valid {e : Nat} (hp : 1 ≤ f.p) (he : e + f.q < f.w) (s : Bool) : (fin s (2 ^ (e + f.q)) : Fl f).Valid :=
  ⟨⟨1, e + f.q, Nat.one_lt_two_pow (by omega), by simp⟩, Nat.pow_lt_pow_right one_lt_two he⟩

theorem toRat_pow {e : Nat} (s : Bool) : (fin s (2 ^ (e + f.q)) : Fl f).toRat = (if s then -1 else 1) * 2 ^ e := by
  have : (2 : ℚ) ^ f.q ≠ 0 := by positivity
  simp [toRat, pow_add, this]

theorem mul_le_pow {e : Nat} (hp : 1 ≤ f.p) (hw : f.p ≤ f.w) (he : e + f.q < f.w) {x y : Fl f}
    (hx : x.isFinite = true) (hy : y.isFinite = true) (h : |x.toRat * y.toRat| ≤ 2 ^ e) :
    (x * y).isFinite = true ∧ |(x * y).toRat| ≤ 2 ^ e := by
  have hf := (C65_no_overflow hp hw x y hx hy).2.1 (h.trans (pow_le_maxFinite hp hw he))
  refine ⟨hf, le_of_nearest h ?_ ?_⟩
  · have := (C65_nearest hp x y _ (pow_valid hp he false) rfl).2.2.1 hf
    simpa [toRat_pow] using this
  · have := (C65_nearest hp x y _ (pow_valid hp he true) rfl).2.2.1 hf
    simpa [toRat_pow] using this

theorem add_le_pow {e : Nat} (hp : 1 ≤ f.p) (hw : f.p ≤ f.w) (he : e + f.q < f.w) {x y : Fl f}
    (hx : x.isFinite = true) (hy : y.isFinite = true) (h : |x.toRat + y.toRat| ≤ 2 ^ e) :
    (x + y).isFinite = true ∧ |(x + y).toRat| ≤ 2 ^ e := by
  have hf := (C65_no_overflow hp hw x y hx hy).1 (h.trans (pow_le_maxFinite hp hw he))
  refine ⟨hf, le_of_nearest h ?_ ?_⟩
  · have := (C65_nearest hp x y _ (pow_valid hp he false) rfl).1 hf
    simpa [toRat_pow] using this
  · have := (C65_nearest hp x y _ (pow_valid hp he true) rfl).1 hf
    simpa [toRat_pow] using this

theorem div_le_pow {e : Nat} (hp : 1 ≤ f.p) (hw : f.p ≤ f.w) (he : e + f.q < f.w) {x y : Fl f}
    (hx : x.isFinite = true) (hy : y.isFinite = true) (h0 : y.toRat ≠ 0) (h : |x.toRat / y.toRat| ≤ 2 ^ e) :
    (div x y).isFinite = true ∧ |(div x y).toRat| ≤ 2 ^ e := by
  have hf := (C65_no_overflow hp hw x y hx hy).2.2 h0 (h.trans (pow_le_maxFinite hp hw he))
  refine ⟨hf, le_of_nearest h ?_ ?_⟩
  · have := (C65_nearest hp x y _ (pow_valid hp he false) rfl).2.2.2 hx hy h0 hf
    simpa [toRat_pow] using this
  · have := (C65_nearest hp x y _ (pow_valid hp he true) rfl).2.2.2 hx hy h0 hf
    simpa [toRat_pow] using this

/-- All coefficients are finite and at most `2^e`. -/
def Below (e : Nat) (l : List (Fl f)) : Prop := ∀ c ∈ l, c.isFinite = true ∧ |c.toRat| ≤ 2 ^ e

theorem synth_below (hp : 1 ≤ f.p) (hw : f.p ≤ f.w) (ρ : Nat) (r : Fl f) (hr : r.isFinite = true)
    (hrb : |r.toRat| ≤ 2 ^ ρ) (e : Nat) : ∀ (T : List (Fl f)) (b : Fl f) (e' : Nat), Below e T → e ≤ e' →
    b.isFinite = true → |b.toRat| ≤ 2 ^ e' → e' + (ρ + 1) * T.length + f.q < f.w + (ρ + 1) →
    Below (e' + (ρ + 1) * (T.length - 1)) (synth r b T)
  | [], _, _, _, _, _, _, _ => fun c hc => by simp [synth] at hc
  | [t], b, e', hT, hee, hb, hbb, hlt => by
    intro c hc
    simp [synth] at hc
    subst hc
    exact ⟨hb, by simpa using hbb⟩
  | t :: t2 :: T, b, e', hT, hee, hb, hbb, hlt => by
    simp only [List.length_cons] at hlt
    have hlt' : e' + (ρ + 1) + (ρ + 1) * (T.length + 1) + f.q < f.w + (ρ + 1) := by
      have : (ρ + 1) * (T.length + 1 + 1) = (ρ + 1) + (ρ + 1) * (T.length + 1) := by ring
      omega
    have hlt2 : e' + (ρ + 1) + f.q < f.w := by
      have : (ρ + 1) * (T.length + 1) = (ρ + 1) + (ρ + 1) * T.length := by ring
      omega
    have h1 := mul_le_pow (e := ρ + e') hp hw (by omega) hr hb (by
      rw [abs_mul, pow_add]
      exact mul_le_mul hrb hbb (abs_nonneg _) (by positivity))
    obtain ⟨ht1, ht2⟩ := hT t (by simp)
    have h2 := add_le_pow (e := e' + (ρ + 1)) hp hw hlt2 ht1 h1.1 (by
      refine (abs_add_le _ _).trans ?_
      have h3 : (2 : ℚ) ^ e ≤ 2 ^ (ρ + e') := pow_le_pow_right₀ (by norm_num) (by omega)
      have h4 : (2 : ℚ) ^ (e' + (ρ + 1)) = 2 ^ (ρ + e') + 2 ^ (ρ + e') := by
        rw [show e' + (ρ + 1) = (ρ + e') + 1 by ring, pow_succ]; ring
      rw [h4]
      exact add_le_add (ht2.trans h3) h1.2)
    have ih := synth_below hp hw ρ r hr hrb e (t2 :: T) (t + r * b) (e' + (ρ + 1))
      (fun c hc => hT c (List.mem_cons_of_mem _ hc)) (by omega) h2.1 h2.2 (by simpa using hlt')
    have ee : e' + (ρ + 1) + (ρ + 1) * ((t2 :: T).length - 1) = e' + (ρ + 1) * ((t :: t2 :: T).length - 1) := by
      simp only [List.length_cons, Nat.add_sub_cancel]
      ring
    intro c hc
    rw [synth] at hc
    rcases List.mem_cons.1 hc with rfl | hc
    · refine ⟨hb, hbb.trans (pow_le_pow_right₀ (by norm_num) (by omega))⟩
    · rw [← ee]; exact ih c hc

/-- `0 + 1 + … + (L - 1)`. -/
def tri (L : Nat) : Nat := L * (L - 1) / 2

theorem tri_succ (L : Nat) : tri (L + 1) = tri L + L := by
  unfold tri
  have : (L + 1) * (L + 1 - 1) = L * (L - 1) + L * 2 := by
    cases L with
    | zero => rfl
    | succ n => simp; ring
  rw [this, Nat.add_mul_div_right _ _ (by norm_num)]

/-- The bounds kept by the loop. -/
def Budget (f : FlFmt) (ρ lam : Nat) (L : Nat) (nv : List (Fl f)) : Prop :=
  ∃ e n0 ns, nv = n0 :: ns ∧ Below e nv ∧
    ((n0 = 1 ∧ e + (ρ + 1) * tri L + f.q < f.w) ∨
      (1 ≤ |n0.toRat| * 2 ^ lam ∧ e + lam + (ρ + 1) * tri L + f.q < f.w))

theorem defl_bounded (hp : 1 ≤ f.p) (hw : f.p ≤ f.w) (ρ lam : Nat) :
    Defl (f := f) False (Budget f ρ lam) (fun r => r.isFinite = true ∧ |r.toRat| ≤ 2 ^ ρ) where
  div := by
    rintro L nv r h2 hl ⟨e, n0, ns, rfl, hB, hh⟩ ⟨hr, hrb⟩
    obtain ⟨_, _, he, hz, hns, hv⟩ := id hl
    cases he
    have hT : tri L = tri (L - 1) + (L - 1) := by
      have := tri_succ (L - 1)
      rwa [show L - 1 + 1 = L by omega] at this
    have hlt : e + (ρ + 1) * (tri (L - 1) + (L - 1)) + f.q < f.w := by
      rw [← hT]
      rcases hh with ⟨_, h⟩ | ⟨_, h⟩ <;> omega
    have hs := synth_below hp hw ρ r hr hrb e ns n0 e (fun c hc => hB c (by simp [hc])) le_rfl
      (hB n0 (by simp)).1 (hB n0 (by simp)).2 (by
        rw [hns]
        have : (ρ + 1) * L = (ρ + 1) * (L - 1) + (ρ + 1) := by
          conv_lhs => rw [show L = L - 1 + 1 by omega]
          ring
        have h' : (ρ + 1) * (tri (L - 1) + (L - 1)) = (ρ + 1) * tri (L - 1) + (ρ + 1) * (L - 1) := by ring
        omega)
    rw [hns] at hs
    rcases div_runs hp r n0 ns L h2 hl with ⟨Q, hQ, h1, h3⟩ | ⟨hn, _⟩
    · refine .inl ⟨Q, ⟨hQ.1, hQ.2.1, ?_⟩, h1, h3⟩
      obtain ⟨_, _, hSim, hfin, hhead⟩ := hQ
      obtain ⟨qs, rfl⟩ : ∃ qs, Q = n0 :: qs := by
        cases Q with
        | nil => simp at hhead
        | cons q qs => simp at hhead; exact ⟨qs, by rw [hhead]⟩
      refine ⟨e + (ρ + 1) * (L - 1), n0, qs, rfl, ?_, ?_⟩
      · clear h1 h3 hfin hhead
        generalize synth r n0 ns = m at hs hSim
        intro c hc
        generalize n0 :: qs = Q at hSim hc
        induction hSim with
        | nil => simp at hc
        | cons hs' _ ih =>
          rcases List.mem_cons.1 hc with rfl | hc
          · rw [hs'.toRat.1, hs'.toRat.2]; exact hs _ (by simp)
          · exact ih (fun c hc => hs c (by simp [hc])) hc
      · have e1 : (ρ + 1) * tri L = (ρ + 1) * tri (L - 1) + (ρ + 1) * (L - 1) := by rw [hT]; ring
        rcases hh with ⟨h4, h5⟩ | ⟨h4, h5⟩
        · exact .inl ⟨h4, by omega⟩
        · exact .inr ⟨h4, by omega⟩
    · exact absurd ⟨hr, fun x hx => (hs x hx).1⟩ hn
  norm := by
    rintro L n0 ns ⟨_, _, he, hz, hns, hv⟩ hfin ⟨e, _, _, he', hB, hh⟩
    cases he; cases he'
    have hw' : f.q < f.w := by rcases hh with ⟨_, h⟩ | ⟨_, h⟩ <;> omega
    have h1 : div n0 n0 = 1 := div_self' hp hw' hfin hz
    rcases hh with ⟨h4, h5⟩ | ⟨h4, h5⟩
    · refine ⟨e, _, _, List.map_cons, ?_, .inl ⟨h1, h5⟩⟩
      intro c hc
      obtain ⟨y, hy, rfl⟩ := List.mem_map.1 hc
      rw [h4, div_one' hp (hv y hy) (hB y hy).1]
      exact hB y hy
    · refine ⟨e + lam, _, _, List.map_cons, ?_, .inl ⟨h1, by omega⟩⟩
      intro c hc
      obtain ⟨y, hy, rfl⟩ := List.mem_map.1 hc
      have h0 : n0.toRat ≠ 0 := (toRat_ne_zero hfin).1 hz
      refine div_le_pow hp hw (by omega) (hB y hy).1 hfin h0 ?_
      rw [abs_div, div_le_iff₀ (abs_pos.2 h0), pow_add]
      calc |y.toRat| ≤ 2 ^ e * 1 := by rw [mul_one]; exact (hB y hy).2
        _ ≤ 2 ^ e * (|n0.toRat| * 2 ^ lam) := by gcongr
        _ = _ := by ring

/-! ## The terms -/

/-- `vals` are the non-zero terms of a polynomial with the coefficients `c`, in descending order. -/
structure Coeffs (vals : List (Fl f × Nat)) (c : Nat → Fl f) : Prop where
  desc : vals.Pairwise (fun s t => s.2 > t.2)
  coef : ∀ t ∈ vals, isZero t.1 = false ∧ c t.2 = t.1
  none : ∀ k, (∀ t ∈ vals, t.2 ≠ k) → c k = 0

theorem plusZero_of_zero {x : Fl f} (h : isZero x = true) : plusZero x = 0 := by rw [plusZero, if_pos h]
theorem plusZero_of_ne {x : Fl f} (h : isZero x = false) : plusZero x = x := by rw [plusZero, h]; rfl

theorem dense_coeffs (p : Poly (Fl f)) : Coeffs p.termsAsVec p.coefAt := by
  show Coeffs p.orderedTermIter _
  rw [orderedTermIter_eq]
  obtain ⟨l⟩ := p
  have hc : ∀ k, (⟨l⟩ : Poly (Fl f)).coefAt k = plusZero (l.reverse.getD k 0) := fun _ => rfl
  generalize (⟨l⟩ : Poly (Fl f)).coefAt = c at hc
  simp only
  refine ⟨descTerms_pairwise l, ?_, ?_⟩
  · have key : ∀ t ∈ descTerms l, isZero t.1 = false ∧ plusZero (l.reverse.getD t.2 0) = t.1 := by
      clear hc
      induction l with
      | nil => simp [descTerms]
      | cons a cs ih =>
        intro t ht
        have hlt : ∀ t ∈ descTerms cs, (a :: cs).reverse.getD t.2 0 = cs.reverse.getD t.2 0 := by
          intro t ht
          have := descTerms_deg_lt cs t ht
          rw [List.reverse_cons, List.getD_eq_getElem?_getD, List.getElem?_append_left (by simpa using this),
            ← List.getD_eq_getElem?_getD]
        rw [descTerms] at ht
        split at ht
        · rw [hlt t ht]; exact ih t ht
        · rename_i hz
          rcases List.mem_cons.1 ht with rfl | ht
          · have hz : isZero a = false := by simpa using hz
            refine ⟨hz, ?_⟩
            rw [List.reverse_cons, List.getD_eq_getElem?_getD, List.getElem?_append_right (by simp)]
            simp [plusZero_of_ne hz]
          · rw [hlt t ht]; exact ih t ht
    intro t ht
    rw [hc]
    exact key t ht
  · intro k hk
    rw [hc]
    apply plusZero_of_zero
    clear hc c
    induction l with
    | nil => rfl
    | cons a cs ih =>
      rw [descTerms] at hk
      rcases lt_trichotomy k cs.length with h | h | h
      · rw [List.reverse_cons, List.getD_eq_getElem?_getD, List.getElem?_append_left (by simpa using h),
          ← List.getD_eq_getElem?_getD]
        refine ih fun t ht => hk t ?_
        split
        · exact ht
        · exact List.mem_cons_of_mem _ ht
      · subst h
        rw [List.reverse_cons, List.getD_eq_getElem?_getD, List.getElem?_append_right (by simp)]
        simp only [List.length_reverse, Nat.sub_self, List.getElem?_cons_zero, Option.getD_some]
        by_contra hz
        rw [if_neg hz] at hk
        exact hk (a, cs.length) (by simp) rfl
      · rw [List.getD_eq_getElem?_getD, List.getElem?_eq_none (by simp; omega)]
        rfl

theorem sparse_coeffs (p : Sparse (Fl f)) : Coeffs p.termsAsVec p.coefAt := by
  unfold Sparse.termsAsVec Sparse.orderedTermIter
  refine ⟨?_, ?_, ?_⟩
  · rw [List.pairwise_filterMap, List.pairwise_reverse]
    refine p.terms.sorted.imp ?_
    intro a b hab x hx y hy
    split at hx
    · simp at hx
    · split at hy
      · simp at hy
      · cases hx; cases hy; exact hab
  · intro t ht
    simp only [List.mem_filterMap, List.mem_reverse] at ht
    obtain ⟨⟨k, x⟩, hm, he⟩ := ht
    split at he
    · simp at he
    · rename_i hz
      injection he with he
      subst he
      have hz : isZero x = false := by simpa using hz
      refine ⟨hz, ?_⟩
      unfold Sparse.coefAt
      rw [(BMap.mem_entries ..).1 hm]
      exact plusZero_of_ne hz
  · intro k hk
    apply plusZero_of_zero
    cases hg : p.terms.get k with
    | none => rfl
    | some x =>
      by_contra hz
      refine hk (x, k) ?_ rfl
      simp only [List.mem_filterMap, List.mem_reverse]
      exact ⟨(k, x), (BMap.mem_entries ..).2 hg, if_neg (by simpa using hz)⟩

/-- The degree of the first term. -/
def headDegree : List (Fl f × Nat) → Degree
  | [] => .negInf
  | t :: _ => .num t.2

theorem dense_degree (p : Poly (Fl f)) : p.degree = headDegree p.termsAsVec := by
  show denseDegree p.terms = headDegree p.orderedTermIter
  rw [orderedTermIter_eq, ← descTerms_dropWhile, denseDegree_eq]
  cases h : p.terms.dropWhile isZero with
  | nil => rfl
  | cons c cs =>
    have := List.head_dropWhile_not (isZero (N := Fl f)) (l := p.terms) (w := by rw [h]; simp)
    simp only [h, List.head_cons] at this
    simp [descTerms, this, headDegree]

theorem sparse_degree (p : Sparse (Fl f)) : p.degree = headDegree p.termsAsVec := by
  have hc := sparse_coeffs p
  have hmem : ∀ k x, isZero x = false → p.terms.get k = some x → (x, k) ∈ p.termsAsVec := by
    intro k x hz hg
    unfold Sparse.termsAsVec Sparse.orderedTermIter
    simp only [List.mem_filterMap, List.mem_reverse]
    exact ⟨(k, x), (BMap.mem_entries ..).2 hg, if_neg (by simpa using hz)⟩
  have hget : ∀ t ∈ p.termsAsVec, p.terms.get t.2 = some t.1 ∧ isZero t.1 = false := by
    intro t ht
    refine ⟨?_, (hc.coef t ht).1⟩
    unfold Sparse.termsAsVec Sparse.orderedTermIter at ht
    simp only [List.mem_filterMap, List.mem_reverse] at ht
    obtain ⟨⟨k, x⟩, hm, he⟩ := ht
    split at he
    · simp at he
    · injection he with he
      subst he
      exact (BMap.mem_entries ..).1 hm
  show sparseDegree p.terms = _
  rcases firstTerm_last p.terms with ⟨_, h2, h3⟩ | ⟨k, c, _, h2, h3, h4, h5⟩
  · rw [h2]
    cases hv : p.termsAsVec with
    | nil => rfl
    | cons t ts =>
      obtain ⟨h6, h7⟩ := hget t (by rw [hv]; simp)
      rw [h3 _ _ h6] at h7; cases h7
  · rw [h2]
    have hm := hmem k c h4 h3
    have hd := hc.desc
    cases hv : p.termsAsVec with
    | nil => rw [hv] at hm; cases hm
    | cons t ts =>
      obtain ⟨h6, h7⟩ := hget t (by rw [hv]; simp)
      rw [hv] at hm hd
      rcases List.mem_cons.1 hm with h | h
      · rw [← h]; rfl
      · have := (List.pairwise_cons.1 hd).1 _ h
        simp only at this
        rw [h5 _ _ this h6] at h7; cases h7

/-! ## The formulas -/

theorem split_desc {n : Nat} : ∀ {l : List (Fl f × Nat)}, l.Pairwise (fun s t => s.2 > t.2) → (∀ t ∈ l, t.2 < n + 1) →
    (∀ t ∈ l, t.2 < n) ∨ ∃ x l', l = (x, n) :: l' ∧ ∀ t ∈ l', t.2 < n
  | [], _, _ => .inl (by simp)
  | (x, d) :: l, hp, h => by
    have h1 := h (x, d) (by simp)
    simp only at h1
    rw [List.pairwise_cons] at hp
    rcases Nat.lt_or_ge d n with hd | hd
    · refine .inl fun t ht => ?_
      rcases List.mem_cons.1 ht with rfl | ht
      · exact hd
      · exact (hp.1 t ht).trans hd
    · have : d = n := by omega
      subst this
      exact .inr ⟨x, l, rfl, hp.1⟩

theorem lt_zero_nil {l : List (Fl f × Nat)} (h : ∀ t ∈ l, t.2 < 0) : l = [] := by
  cases l with
  | nil => rfl
  | cons t l => exact absurd (h t (by simp)) (by omega)

theorem shapes1 {l : List (Fl f × Nat)} (hp : l.Pairwise (fun s t => s.2 > t.2)) (h : ∀ t ∈ l, t.2 < 1) :
    l = [] ∨ ∃ x, l = [(x, 0)] := by
  rcases split_desc hp h with h | ⟨x, l', rfl, h'⟩
  · exact .inl (lt_zero_nil h)
  · exact .inr ⟨x, by rw [lt_zero_nil h']⟩

theorem shapes2 {l : List (Fl f × Nat)} (hp : l.Pairwise (fun s t => s.2 > t.2)) (h : ∀ t ∈ l, t.2 < 2) :
    l = [] ∨ (∃ x, l = [(x, 0)]) ∨ (∃ x, l = [(x, 1)]) ∨ ∃ x y, l = [(x, 1), (y, 0)] := by
  rcases split_desc hp h with h | ⟨x, l', rfl, h'⟩
  · rcases shapes1 hp h with h | h
    · exact .inl h
    · exact .inr (.inl h)
  · rcases shapes1 (List.pairwise_cons.1 hp).2 h' with rfl | ⟨y, rfl⟩
    · exact .inr (.inr (.inl ⟨x, rfl⟩))
    · exact .inr (.inr (.inr ⟨x, y, rfl⟩))

theorem quadCoeffs_eq {a : Fl f} {rest : List (Fl f × Nat)} {c : Nat → Fl f} (h : Coeffs ((a, 2) :: rest) c) :
    quadCoeffs rest = .ok (c 1, c 0) := by
  have hp := List.pairwise_cons.1 h.desc
  have hc := h.coef
  have h0 := h.none 0
  have h1 := h.none 1
  rcases shapes2 hp.2 hp.1 with rfl | ⟨x, rfl⟩ | ⟨x, rfl⟩ | ⟨x, y, rfl⟩
  · simp at h0 h1
    simp [quadCoeffs, h0, h1]
  · have := hc (x, 0) (by simp)
    simp at h1 this
    simp [quadCoeffs, h1, this]
  · have := hc (x, 1) (by simp)
    simp at h0 this
    simp [quadCoeffs, h0, this]
  · have g1 := hc (x, 1) (by simp)
    have g0 := hc (y, 0) (by simp)
    simp at g0 g1
    simp [quadCoeffs, g0, g1]

theorem cubicCoeffs_eq {a : Fl f} {rest : List (Fl f × Nat)} {c : Nat → Fl f} (h : Coeffs ((a, 3) :: rest) c) :
    cubicCoeffs rest = .ok (c 2, c 1, c 0) := by
  have hp := List.pairwise_cons.1 h.desc
  have hc := h.coef
  have h0 := h.none 0
  have h1 := h.none 1
  have h2 := h.none 2
  rcases split_desc hp.2 hp.1 with hl | ⟨z, l', rfl, hl⟩
  · rcases shapes2 hp.2 hl with rfl | ⟨x, rfl⟩ | ⟨x, rfl⟩ | ⟨x, y, rfl⟩
    · simp at h0 h1 h2
      simp [cubicCoeffs, h0, h1, h2]
    · have := hc (x, 0) (by simp)
      simp at h1 h2 this
      simp [cubicCoeffs, h1, h2, this]
    · have := hc (x, 1) (by simp)
      simp at h0 h2 this
      simp [cubicCoeffs, h0, h2, this]
    · have g1 := hc (x, 1) (by simp)
      have g0 := hc (y, 0) (by simp)
      simp at g0 g1 h2
      simp [cubicCoeffs, g0, g1, h2]
  · have gz := hc (z, 2) (by simp)
    rcases shapes2 (List.pairwise_cons.1 hp.2).2 hl with rfl | ⟨x, rfl⟩ | ⟨x, rfl⟩ | ⟨x, y, rfl⟩
    · simp at h0 h1 gz
      simp [cubicCoeffs, h0, h1, gz]
    · have := hc (x, 0) (by simp)
      simp at h1 gz this
      simp [cubicCoeffs, h1, gz, this]
    · have := hc (x, 1) (by simp)
      simp at h0 gz this
      simp [cubicCoeffs, h0, gz, this]
    · have g1 := hc (x, 1) (by simp)
      have g0 := hc (y, 0) (by simp)
      simp at g0 g1 gz
      simp [cubicCoeffs, g0, g1, gz]

theorem trinomial_two (a b c : Fl f) : ∃ r, trinomialRoots a b c = .ok r ∧
    ((∃ x y, r = .twoRealRoots x y) ∨ ∃ x y, r = .twoComplexRoots x y) := by
  rw [trinomialRoots_fl]
  refine ⟨_, rfl, ?_⟩
  split
  · exact .inl ⟨_, _, rfl⟩
  · split
    · exact .inl ⟨_, _, rfl⟩
    · exact .inr ⟨_, _, rfl⟩

theorem cubic_three [Cbrt (Fl f)] (a b c d : Fl f) : ∃ r, cubicRoots a b c d = .ok r ∧
    ((∃ x y z, r = .threeRealRoots x y z) ∨ ∃ x y z, r = .threeComplexRoots x y z) := by
  unfold cubicRoots
  simp only [rdiv_eq, Res.ok_bind, show ∀ x : Fl f, absSqrt x = .ok (sqrt (abs x)) from fun _ => rfl]
  obtain ⟨r, hr, ⟨x, y, rfl⟩ | ⟨x, y, rfl⟩⟩ := trinomial_two (1 : Fl f) _ _
  · rw [hr]; exact ⟨_, rfl, .inl ⟨_, _, _, rfl⟩⟩
  · rw [hr]; exact ⟨_, rfl, .inr ⟨_, _, _, rfl⟩⟩

/-! ## Rounding to whole numbers -/

/-- C90: `f64::round` as used by `find_roots`: the nearest whole number, halves away from zero. -/
theorem C90_round (hw : f.p + f.q ≤ f.w) (x : Fl f) (hx : x.isFinite = true) (hv : x.Valid) :
    (round x).isFinite = true ∧ (round x).Valid ∧ ∃ n : ℤ, (round x).toRat = n ∧ |x.toRat - n| ≤ 1 / 2 ∧
      (|x.toRat - n| = 1 / 2 → |x.toRat| < |(n : ℚ)|) ∧ ∀ e : Nat, |x.toRat| ≤ 2 ^ e → |(n : ℚ)| ≤ 2 ^ e := by
  obtain ⟨s, a, rfl⟩ := isFinite_iff.1 hx
  obtain ⟨m, hm⟩ : ∃ m, m = (2 * a + 2 ^ f.q) / (2 * 2 ^ f.q) := ⟨_, rfl⟩
  have hr : round (fin s a : Fl f) = fin s (m * 2 ^ f.q) := by rw [hm]; rfl
  have hQ : 0 < 2 ^ f.q := by positivity
  have hdm := Nat.div_add_mod (2 * a + 2 ^ f.q) (2 * 2 ^ f.q)
  have hlt := Nat.mod_lt (2 * a + 2 ^ f.q) (show 0 < 2 * 2 ^ f.q by omega)
  rw [← hm] at hdm
  have hlo : 2 * 2 ^ f.q * m ≤ 2 * a + 2 ^ f.q := by omega
  have hhi : 2 * a < 2 * 2 ^ f.q * m + 2 ^ f.q := by omega
  have hq0 : (0 : ℚ) < 2 ^ f.q := by positivity
  have hlo' : (m : ℚ) ≤ a / 2 ^ f.q + 1 / 2 := by
    have h : (2 : ℚ) * 2 ^ f.q * m ≤ 2 * a + 2 ^ f.q := by exact_mod_cast hlo
    rw [div_add_div _ _ hq0.ne' two_ne_zero, le_div_iff₀ (by positivity)]
    linarith
  have hhi' : (a : ℚ) / 2 ^ f.q < m + 1 / 2 := by
    have h : (2 : ℚ) * a < 2 * 2 ^ f.q * m + 2 ^ f.q := by exact_mod_cast hhi
    rw [div_lt_iff₀ hq0]
    linarith
  have hx0 : |(fin s a : Fl f).toRat| = a / 2 ^ f.q := by
    unfold toRat
    rw [abs_mul, sign_abs, one_mul, abs_of_nonneg (by positivity)]
  have hdiff : ∀ y : ℚ, |(if s then (-1 : ℚ) else 1) * y| = |y| := by
    intro y; rw [abs_mul, sign_abs, one_mul]
  rw [hr]
  refine ⟨rfl, ?_, (if s then -1 else 1) * m, ?_, ?_, ?_, ?_⟩
  · obtain ⟨⟨k, e, hk, he⟩, haw⟩ := hv
    rcases Nat.lt_or_ge e f.q with heq | heq
    · have hp1 : 2 ^ f.p * 2 ^ (f.q - 1) = 2 ^ (f.p + f.q - 1) := by rw [← pow_add]; congr 1; omega
      have ha : a < 2 ^ f.p * 2 ^ (f.q - 1) := by
        rw [he]
        calc k * 2 ^ e < 2 ^ f.p * 2 ^ e := Nat.mul_lt_mul_of_pos_right hk (by positivity)
          _ ≤ _ := Nat.mul_le_mul_left _ (Nat.pow_le_pow_right (by norm_num) (by omega))
      have h2 : 2 ^ f.q = 2 * 2 ^ (f.q - 1) := by rw [← pow_succ']; congr 1; omega
      have hm2 : m < 2 ^ f.p ∨ (m = 1 ∧ 2 ^ f.p = 1) := by
        by_contra hcon
        push Not at hcon
        have hge := hcon.1
        have hmm : 2 * 2 ^ f.q * 2 ^ f.p ≤ 2 * 2 ^ f.q * m := Nat.mul_le_mul_left _ hge
        have hP : 1 ≤ 2 ^ f.p := Nat.one_le_two_pow
        have h4 : 2 * 2 ^ f.q * 2 ^ f.p = 2 * (2 ^ f.p * 2 ^ f.q) := by ring
        have h5 : 2 ^ f.p * 2 ^ f.q = 2 * (2 ^ f.p * 2 ^ (f.q - 1)) := by rw [h2]; ring
        have h6 : 2 ^ f.q ≤ 2 ^ f.p * 2 ^ f.q := Nat.le_mul_of_pos_left _ hP
        omega
      rcases hm2 with hm2 | ⟨hm2, h1⟩
      · refine ⟨⟨m, f.q, hm2, rfl⟩, ?_⟩
        calc m * 2 ^ f.q < 2 ^ f.p * 2 ^ f.q := Nat.mul_lt_mul_of_pos_right hm2 hQ
          _ = 2 ^ (f.p + f.q) := (pow_add ..).symm
          _ ≤ _ := Nat.pow_le_pow_right (by norm_num) hw
      · rw [h1, one_mul] at ha
        exfalso
        rw [h1] at hk
        have : k = 0 := by omega
        rw [this, zero_mul] at he
        rw [hm2] at hlo
        omega
    · have hd : a = k * 2 ^ (e - f.q) * 2 ^ f.q := by
        rw [mul_assoc, ← pow_add, he]; congr 2; omega
      have : m = k * 2 ^ (e - f.q) := by
        generalize k * 2 ^ (e - f.q) = j at hd
        rw [hd] at hlo hhi
        have h1 : 2 * 2 ^ f.q * m = 2 * (m * 2 ^ f.q) := by ring
        have h2 : (j + 1) * 2 ^ f.q = j * 2 ^ f.q + 2 ^ f.q := by ring
        have h3 : (m + 1) * 2 ^ f.q = m * 2 ^ f.q + 2 ^ f.q := by ring
        apply le_antisymm
        · by_contra hc
          have := Nat.mul_le_mul_right (2 ^ f.q) (show j + 1 ≤ m by omega)
          omega
        · by_contra hc
          have := Nat.mul_le_mul_right (2 ^ f.q) (show m + 1 ≤ j by omega)
          omega
      rw [this, ← hd]
      exact ⟨⟨k, e, hk, he⟩, haw⟩
  · simp only [toRat]
    push_cast
    rw [mul_div_assoc, div_self hq0.ne', mul_one]
  · have : (fin s a : Fl f).toRat - (((if s then -1 else 1) * m : ℤ) : ℚ) = (if s then (-1 : ℚ) else 1) * (a / 2 ^ f.q - m) := by
      (cases s <;> simp [toRat]); ring
    rw [this, hdiff, abs_le]
    constructor <;> linarith
  · have : (fin s a : Fl f).toRat - (((if s then -1 else 1) * m : ℤ) : ℚ) = (if s then (-1 : ℚ) else 1) * (a / 2 ^ f.q - m) := by
      (cases s <;> simp [toRat]); ring
    rw [this, hdiff, hx0]
    intro h
    have hn : |(((if s then -1 else 1) * m : ℤ) : ℚ)| = m := by cases s <;> simp
    rw [hn]
    rcases abs_cases ((a : ℚ) / 2 ^ f.q - m) with ⟨h1, h2⟩ | ⟨h1, h2⟩ <;> linarith
  · intro e he
    have hn : |(((if s then -1 else 1) * m : ℤ) : ℚ)| = m := by cases s <;> simp
    rw [hn]
    rw [hx0, div_le_iff₀ hq0] at he
    have he : a ≤ 2 ^ e * 2 ^ f.q := by exact_mod_cast he
    have : m ≤ 2 ^ e := by
      by_contra hc
      have h1 := Nat.mul_le_mul_right (2 * 2 ^ f.q) (show 2 ^ e + 1 ≤ m by omega)
      have h2 : (2 ^ e + 1) * (2 * 2 ^ f.q) = 2 * (2 ^ e * 2 ^ f.q) + 2 * 2 ^ f.q := by ring
      have h3 : 2 * 2 ^ f.q * m = m * (2 * 2 ^ f.q) := by ring
      omega
    exact_mod_cast this

theorem round_below (x : Fl f) (e : Nat) (hx : x.isFinite = true) (h : |x.toRat| ≤ 2 ^ e) :
    (round x).isFinite = true ∧ |(round x).toRat| ≤ 2 ^ e := by
  obtain ⟨s, a, rfl⟩ := isFinite_iff.1 hx
  refine ⟨rfl, ?_⟩
  have hq0 : (0 : ℚ) < 2 ^ f.q := by positivity
  have hx0 : ∀ a : Nat, |(fin s a : Fl f).toRat| = a / 2 ^ f.q := by
    intro a
    unfold toRat
    rw [abs_mul, sign_abs, one_mul, abs_of_nonneg (by positivity)]
  have hr : round (fin s a : Fl f) = fin s ((2 * a + 2 ^ f.q) / (2 * 2 ^ f.q) * 2 ^ f.q) := rfl
  rw [hr, hx0, div_le_iff₀ hq0]
  rw [hx0, div_le_iff₀ hq0] at h
  have h : a ≤ 2 ^ e * 2 ^ f.q := by exact_mod_cast h
  have : (2 * a + 2 ^ f.q) / (2 * 2 ^ f.q) ≤ 2 ^ e := by
    rw [← Nat.lt_succ_iff, Nat.div_lt_iff_lt_mul (by positivity)]
    have h2 : (2 ^ e).succ * (2 * 2 ^ f.q) = 2 * (2 ^ e * 2 ^ f.q) + 2 * 2 ^ f.q := by
      rw [Nat.succ_eq_add_one]; ring
    have : 0 < 2 ^ f.q := by positivity
    omega
  exact_mod_cast Nat.mul_le_mul_right _ this

/-! ## The quality of one deflation -/

theorem coeff_descPoly_ge (l : List ℚ) {i : Nat} (h : l.length ≤ i) : (descPoly l).coeff i = 0 := by
  induction l with
  | nil => simp
  | cons a l ih =>
    simp only [List.length_cons] at h
    rw [descPoly_cons, coeff_add, coeff_C_mul, coeff_X_pow, if_neg (by omega), ih (by omega)]
    simp

theorem coeff_descPoly_cons_lt (a : ℚ) (l : List ℚ) {i : Nat} (h : i < l.length) :
    (descPoly (a :: l)).coeff i = (descPoly l).coeff i := by
  rw [descPoly_cons, coeff_add, coeff_C_mul, coeff_X_pow, if_neg (by omega)]
  simp

theorem coeff_descPoly_cons_eq (a : ℚ) (l : List ℚ) : (descPoly (a :: l)).coeff l.length = a := by
  rw [descPoly_cons, coeff_add, coeff_C_mul, coeff_X_pow, if_pos rfl, coeff_descPoly_ge l le_rfl]
  simp

theorem sims_finite {l m : List (Fl f)} (h : List.Forall₂ Sim l m) (hl : ∀ x ∈ l, x.isFinite = true) :
    ∀ x ∈ m, x.isFinite = true := by
  induction h with
  | nil => simp
  | cons hs' _ ih =>
    intro x hx
    rcases List.mem_cons.1 hx with rfl | hx
    · rw [← hs'.toRat.2]; exact hl _ (by simp)
    · exact ih (fun x hx => hl x (by simp [hx])) x hx

theorem sims_toRat {l m : List (Fl f)} (h : List.Forall₂ Sim l m) : l.map toRat = m.map toRat := by
  induction h with
  | nil => rfl
  | cons hs' _ ih => rw [List.map_cons, List.map_cons, ih, hs'.toRat.1]

theorem synth_backward (r : Fl f) : ∀ (T : List (Fl f)) (b : Fl f), (∀ x ∈ synth r b T, x.isFinite = true) →
    ∃ (rem : ℚ) (E : ℚ[X]), descPoly ((b :: T).map toRat) =
        (X - C r.toRat) * descPoly ((synth r b T).map toRat) + C rem + E ∧
      E.coeff 0 = 0 ∧ (∀ i, T.length ≤ i → E.coeff i = 0) ∧
      ∀ i, |E.coeff i| ≤ uro f * |(descPoly (T.map toRat)).coeff i| +
        (2 * uro f + uro f ^ 2) * |r.toRat * (descPoly ((synth r b T).map toRat)).coeff i| + (1 + uro f) * eta f
  | [], b, _ => by
    refine ⟨b.toRat, 0, by simp [synth, descPoly_cons], by simp, by simp, fun i => ?_⟩
    have := uro_nonneg (f := f)
    have := eta_nonneg (f := f)
    simp [synth]
    positivity
  | [t], b, _ => by
    refine ⟨t.toRat + r.toRat * b.toRat, 0, ?_, by simp, by simp, fun i => ?_⟩
    · simp [synth, descPoly_cons]; ring
    · have := uro_nonneg (f := f)
      have := eta_nonneg (f := f)
      rw [coeff_zero, abs_zero]
      positivity
  | t :: t2 :: T, b, hf => by
    obtain ⟨rem, E', h1, h2, h3, h4⟩ := synth_backward r (t2 :: T) (t + r * b)
      (fun x hx => hf x (by rw [synth]; exact List.mem_cons_of_mem _ hx))
    have hb' : (t + r * b).isFinite = true := hf _ (by simp [synth])
    obtain ⟨_, hrb⟩ := finite_of_add hb'
    have ea := add_error hb'
    have em := mul_error hrb
    have hu := uro_nonneg (f := f)
    have hη := eta_nonneg (f := f)
    have hQlen : ((synth r (t + r * b) (t2 :: T)).map toRat).length = T.length + 1 := by
      rw [List.length_map, synth_length, List.length_cons]
    have hQ : (synth r b (t :: t2 :: T)).map toRat = b.toRat :: (synth r (t + r * b) (t2 :: T)).map toRat := by
      rw [synth, List.map_cons]
    have hTlen : ((t2 :: T).map toRat).length = T.length + 1 := by rw [List.length_map, List.length_cons]
    refine ⟨rem, E' + C (t.toRat + r.toRat * b.toRat - (t + r * b).toRat) * X ^ (T.length + 1), ?_, ?_, ?_, ?_⟩
    · rw [List.map_cons, descPoly_cons, hTlen] at h1
      rw [hQ, descPoly_cons, hQlen, List.map_cons, List.map_cons, descPoly_cons, descPoly_cons, List.length_cons, hTlen]
      have h5 : descPoly ((t2 :: T).map toRat) =
          (X - C r.toRat) * descPoly ((synth r (t + r * b) (t2 :: T)).map toRat) + C rem + E' -
            C (t + r * b).toRat * X ^ (T.length + 1) := by rw [← h1]; ring
      rw [h5]
      simp only [C_sub, C_add, C_mul]
      ring
    · rw [coeff_add, h2, coeff_C_mul, coeff_X_pow, if_neg (by omega)]
      simp
    · intro i hi
      simp only [List.length_cons] at hi
      rw [coeff_add, h3 i (by simp; omega), coeff_C_mul, coeff_X_pow, if_neg (by omega)]
      simp
    · intro i
      rcases lt_trichotomy i (T.length + 1) with hi | hi | hi
      · rw [coeff_add, coeff_C_mul, coeff_X_pow, if_neg (by omega), mul_zero, add_zero, hQ,
          coeff_descPoly_cons_lt _ _ (by rw [hQlen]; exact hi), List.map_cons,
          coeff_descPoly_cons_lt _ _ (by rw [hTlen]; exact hi)]
        exact h4 i
      · subst hi
        rw [coeff_add, h3 _ (by simp), coeff_C_mul, coeff_X_pow, if_pos rfl, zero_add, mul_one, hQ, List.map_cons]
        have e1 := coeff_descPoly_cons_eq b.toRat ((synth r (t + r * b) (t2 :: T)).map toRat)
        have e2 := coeff_descPoly_cons_eq t.toRat ((t2 :: T).map toRat)
        rw [hQlen] at e1
        rw [hTlen] at e2
        rw [e1, e2]
        have k1 : |t.toRat + (r * b).toRat| ≤ |t.toRat| + (|r.toRat * b.toRat| + (uro f * |r.toRat * b.toRat| + eta f)) := by
          have : t.toRat + (r * b).toRat = t.toRat + (r.toRat * b.toRat + ((r * b).toRat - r.toRat * b.toRat)) := by ring
          rw [this]
          exact (abs_add_le _ _).trans (add_le_add le_rfl ((abs_add_le _ _).trans (add_le_add le_rfl em)))
        have k2 : |t.toRat + r.toRat * b.toRat - (t + r * b).toRat| ≤
            uro f * |t.toRat + (r * b).toRat| + (uro f * |r.toRat * b.toRat| + eta f) := by
          have : t.toRat + r.toRat * b.toRat - (t + r * b).toRat =
            -((t + r * b).toRat - (t.toRat + (r * b).toRat)) + -((r * b).toRat - r.toRat * b.toRat) := by ring
          rw [this]
          refine (abs_add_le _ _).trans (add_le_add ?_ ?_)
          · rw [abs_neg]; exact ea
          · rw [abs_neg]; exact em
        have k3 := mul_le_mul_of_nonneg_left k1 hu
        calc _ ≤ _ := k2
          _ ≤ uro f * (|t.toRat| + (|r.toRat * b.toRat| + (uro f * |r.toRat * b.toRat| + eta f))) +
              (uro f * |r.toRat * b.toRat| + eta f) := by linarith
          _ = _ := by ring
      · rw [coeff_add, h3 i (by simp; omega), coeff_C_mul, coeff_X_pow, if_neg (by omega)]
        rw [mul_zero, add_zero, abs_zero]
        positivity

/-- C90: one deflation is backward stable.  When `div` returns `Q` for the polynomial `N` and the root `r`, then
`N = (x - r) Q + rem + E` exactly, for a constant `rem` and an error polynomial `E` without constant term whose
coefficients are at most `u |N_i| + (2u + u²) |r Q_i| + (1 + u) η`. -/
theorem C90_deflation_backward (hp : 1 ≤ f.p) (r a : Fl f) (as : List (Fl f)) (ha : isZero a = false)
    (hv : ∀ c ∈ a :: as, c.Valid) (h2 : 2 ≤ as.length) (fuel : Nat) (Q : List (Fl f))
    (h : divRoot fuel (a :: as) r = .ok Q) (N Q' : ℚ[X]) (hN : N = descPoly ((a :: as).map toRat))
    (hQ' : Q' = descPoly (Q.map toRat)) :
    Q.length = as.length ∧ ∃ (rem : ℚ) (E : ℚ[X]), N = (X - C r.toRat) * Q' + C rem + E ∧ E.coeff 0 = 0 ∧
      ∀ i, |E.coeff i| ≤ uro f * |N.coeff i| + (2 * uro f + uro f ^ 2) * |r.toRat * Q'.coeff i| + (1 + uro f) * eta f := by
  rcases div_runs hp r a as as.length h2 ⟨a, as, rfl, ha, rfl, hv⟩ with ⟨Q0, hQ, _, h3⟩ | ⟨_, h3⟩
  · rcases h3 fuel with h3 | h3
    · dsimp only at h3; rw [h] at h3; cases h3
    · dsimp only at h3; rw [h] at h3; cases h3
      obtain ⟨_, _, hSim, hfin, _⟩ := hQ
      have hs := sims_finite hSim hfin
      have hmap := sims_toRat hSim
      refine ⟨by rw [hSim.length_eq, synth_length], ?_⟩
      obtain ⟨rem, E, h4, h5, h6, h7⟩ := synth_backward r as a hs
      rw [← hmap, ← hQ'] at h4 h7
      rw [← hN] at h4
      refine ⟨rem, E, h4, h5, fun i => ?_⟩
      rcases Nat.lt_or_ge i as.length with hi | hi
      · have := h7 i
        rw [hN, List.map_cons, coeff_descPoly_cons_lt _ _ (by simpa using hi)]
        exact this
      · rw [h6 i hi, abs_zero]
        have := uro_nonneg (f := f)
        have := eta_nonneg (f := f)
        positivity
  · have := h3 fuel
    dsimp only at this
    rw [h] at this; cases this

/-! ## The dispatch -/

variable [Cbrt (Fl f)]

/-- What `find_roots_special` computes. -/
theorem special_eq {vals : List (Fl f × Nat)} {c : Nat → Fl f} (h : Coeffs vals c) :
    (vals = [] ∧ findRootsSpecial vals = .ok (some .infiniteRoots)) ∨
    (∃ a, vals = [(a, 0)] ∧ findRootsSpecial vals = .ok (some .noRoots)) ∨
    (∃ a n, vals = [(a, n + 1)] ∧ findRootsSpecial vals = .ok (some (.manyRealRoots [0]))) ∨
    (∃ a b, vals = [(a, 1), (b, 0)] ∧ findRootsSpecial vals = .ok (some (.manyRealRoots [div (-c 0) (c 1)]))) ∨
    (∃ a t ts r, vals = (a, 2) :: t :: ts ∧ trinomialRoots (c 2) (c 1) (c 0) = .ok r ∧
      findRootsSpecial vals = .ok (some r.many)) ∨
    (∃ a t ts r, vals = (a, 3) :: t :: ts ∧ cubicRoots (c 3) (c 2) (c 1) (c 0) = .ok r ∧
      findRootsSpecial vals = .ok (some r.many)) ∨
    (∃ a d t ts, vals = (a, d + 4) :: t :: ts ∧ findRootsSpecial vals = .ok none) := by
  match vals, h with
  | [], _ => exact .inl ⟨rfl, rfl⟩
  | [(a, 0)], _ => exact .inr (.inl ⟨a, rfl, rfl⟩)
  | [(a, n + 1)], _ => exact .inr (.inr (.inl ⟨a, n, rfl, by rcases n with _ | _ | _ | n <;> rfl⟩))
  | (a, 0) :: t :: ts, h =>
    have := (List.pairwise_cons.1 h.desc).1 t (by simp)
    simp at this
  | (a, 1) :: t :: ts, h =>
    have hp := List.pairwise_cons.1 h.desc
    rcases shapes1 hp.2 hp.1 with h' | ⟨x, h'⟩
    · cases h'
    · cases h'
      have h1 := (h.coef (a, 1) (by simp)).2
      have h0 := (h.coef (x, 0) (by simp)).2
      simp only at h0 h1
      refine .inr (.inr (.inr (.inl ⟨a, x, rfl, ?_⟩)))
      rw [h0, h1]
      rfl
  | (a, 2) :: t :: ts, h =>
    obtain ⟨r, hr, hs⟩ := trinomial_two (c 2) (c 1) (c 0)
    refine .inr (.inr (.inr (.inr (.inl ⟨a, t, ts, r, rfl, hr, ?_⟩))))
    have ha : c 2 = a := (h.coef (a, 2) (by simp)).2
    show (quadCoeffs (t :: ts) >>= _) = _
    rw [quadCoeffs_eq h, Res.ok_bind]
    simp only [← ha]
    rw [hr, Res.ok_bind]
    rcases hs with ⟨x, y, rfl⟩ | ⟨x, y, rfl⟩ <;> rfl
  | (a, 3) :: t :: ts, h =>
    obtain ⟨r, hr, hs⟩ := cubic_three (c 3) (c 2) (c 1) (c 0)
    refine .inr (.inr (.inr (.inr (.inr (.inl ⟨a, t, ts, r, rfl, hr, ?_⟩)))))
    have ha : c 3 = a := (h.coef (a, 3) (by simp)).2
    show (cubicCoeffs (t :: ts) >>= _) = _
    rw [cubicCoeffs_eq h, Res.ok_bind]
    simp only [← ha]
    rw [hr, Res.ok_bind]
    rcases hs with ⟨x, y, z, rfl⟩ | ⟨x, y, z, rfl⟩ <;> rfl
  | (a, d + 4) :: t :: ts, _ => exact .inr (.inr (.inr (.inr (.inr (.inr ⟨a, d, t, ts, rfl, rfl⟩)))))

/-! ## All cases -/

theorem fillValues_fl (a : Fl f) (deg : Nat) : ∀ (rest : List (Fl f × Nat)) (values nvalues : List (Fl f)),
    values.length = deg + 1 → nvalues.length = deg + 1 → (∀ t ∈ rest, t.2 < deg) →
    rest.Pairwise (fun s t => s.2 > t.2) →
    ∃ v n, fillValues a deg rest values nvalues = .ok (v, n) ∧ v.length = deg + 1 ∧ n.length = deg + 1 ∧
      n.head? = nvalues.head? ∧ (∀ x ∈ n, x ∈ nvalues ∨ ∃ t ∈ rest, x = t.1) ∧
      (∀ t ∈ rest, v[deg - t.2]? = some (div t.1 a)) ∧
      (∀ i, (∀ t ∈ rest, deg - t.2 ≠ i) → v[i]? = values[i]?) := by
  intro rest
  induction rest with
  | nil =>
    intro values nvalues h1 h2 _ _
    exact ⟨values, nvalues, rfl, h1, h2, rfl, fun x hx => .inl hx, by simp, fun _ _ => rfl⟩
  | cons t rest ih =>
    intro values nvalues h1 h2 h3 h4
    obtain ⟨val, d⟩ := t
    have hd : d < deg := h3 (val, d) (by simp)
    rw [List.pairwise_cons] at h4
    unfold fillValues
    rw [usub, if_pos (by omega), Res.ok_bind, if_pos (by omega), rdiv_eq, Res.ok_bind]
    obtain ⟨v, n, e1, e2, e3, e4, e5, e6, e7⟩ := ih (values.set (deg - d) (div val a)) (nvalues.set (deg - d) val)
      (by simpa using h1) (by simpa using h2) (fun t ht => h3 t (by simp [ht])) h4.2
    refine ⟨v, n, e1, e2, e3, ?_, ?_, ?_, ?_⟩
    · rw [e4]
      obtain ⟨j, hj⟩ : ∃ j, deg - d = j + 1 := ⟨deg - d - 1, by omega⟩
      rw [hj]
      cases nvalues <;> rfl
    · intro x hx
      rcases e5 x hx with h | ⟨t, ht, h⟩
      · rcases List.mem_or_eq_of_mem_set h with h | h
        · exact .inl h
        · exact .inr ⟨(val, d), by simp, h⟩
      · exact .inr ⟨t, by simp [ht], h⟩
    · intro t ht
      rcases List.mem_cons.1 ht with rfl | ht
      · rw [e7 _ (by
          intro s hs
          have h5 := h4.1 s hs
          have h6 := h3 s (by simp [hs])
          simp only at h5 ⊢
          omega)]
        rw [List.getElem?_set_self (by omega)]
      · exact e6 t ht
    · intro i hi
      rw [e7 i (fun t ht => hi t (by simp [ht])), List.getElem?_set_ne (hi (val, d) (by simp))]

/-- The preparation of the loop. -/
theorem findRoots_loop {c : Nat → Fl f} {a : Fl f} {d : Nat} {t : Fl f × Nat} {ts : List (Fl f × Nat)}
    (h : Coeffs ((a, d + 4) :: t :: ts) c) (hv : ∀ t' ∈ (a, d + 4) :: t :: ts, t'.1.Valid)
    (oracle : List (Fl f) → List (Fl f)) (rnd eval : Fl f → Fl f) :
    ∃ v n, (∀ fuel, findRoots oracle rnd fuel ((a, d + 4) :: t :: ts) (.num (d + 4)) eval =
        findRootsLoop oracle rnd eval (.num (d + 4)) fuel fuel v n []) ∧ v.length = d + 4 + 1 ∧
      v.tail = solverInput c (d + 4) ∧ Lead (d + 4) n ∧ n.head? = some a ∧
      ∀ x ∈ n, x = 0 ∨ ∃ t' ∈ (a, d + 4) :: t :: ts, x = t'.1 := by
  have hp := List.pairwise_cons.1 h.desc
  obtain ⟨v, n, e1, e2, e3, e4, e5, e6, e7⟩ := fillValues_fl a (d + 4) (t :: ts) (List.replicate (d + 4 + 1) 0)
    ((List.replicate (d + 4 + 1) 0).set 0 a) (by simp) (by simp) hp.1 hp.2
  have hmem : ∀ x ∈ n, x = 0 ∨ ∃ t' ∈ (a, d + 4) :: t :: ts, x = t'.1 := by
    intro x hx
    rcases e5 x hx with h | ⟨t', ht, h⟩
    · rcases List.mem_or_eq_of_mem_set h with h | h
      · exact .inl (List.eq_of_mem_replicate h)
      · exact .inr ⟨(a, d + 4), by simp, h⟩
    · exact .inr ⟨t', List.mem_cons_of_mem _ ht, h⟩
  have hn : n.head? = some a := by rw [e4]; rfl
  refine ⟨v, n, fun fuel => ?_, e2, ?_, ?_, hn, hmem⟩
  · have hs : findRootsSpecial ((a, d + 4) :: t :: ts) = .ok none := rfl
    unfold findRoots
    rw [hs, Res.ok_bind]
    simp only
    rw [e1, Res.ok_bind]
  · have hcd : c (d + 4) = a := (h.coef (a, d + 4) (by simp)).2
    apply List.ext_getElem?
    intro i
    rw [List.getElem?_tail]
    unfold solverInput
    rcases Nat.lt_or_ge i (d + 4) with hi | hi
    · rw [List.getElem?_map, List.getElem?_reverse (by simpa using hi), List.length_range,
        List.getElem?_range (by omega), Option.map_some, hcd]
      by_cases ht : ∃ t' ∈ t :: ts, t'.2 = d + 4 - 1 - i
      · obtain ⟨t', ht, he⟩ := ht
        have hlt := hp.1 t' ht
        simp only at hlt
        have hc := h.coef t' (List.mem_cons_of_mem _ ht)
        rw [← he, hc.2, hc.1]
        have := e6 t' ht
        rw [show d + 4 - t'.2 = i + 1 by omega] at this
        rw [this]
        rfl
      · push Not at ht
        rw [e7 (i + 1) (by
          intro t' ht'
          have := ht t' ht'
          have hlt := hp.1 t' ht'
          simp only at hlt
          omega), List.getElem?_replicate, if_pos (by omega)]
        rw [h.none (d + 4 - 1 - i) (by
          intro t' ht'
          rcases List.mem_cons.1 ht' with rfl | ht'
          · simp only; omega
          · exact ht t' ht')]
        rfl
    · rw [List.getElem?_eq_none (by omega), List.getElem?_eq_none (by simpa using hi)]
  · obtain ⟨n0, ns, rfl⟩ := List.exists_cons_of_length_eq_add_one e3
    simp at hn
    subst hn
    refine ⟨n0, ns, rfl, (h.coef (n0, d + 4) (by simp)).1, by simpa using e3, ?_⟩
    intro x hx
    rcases hmem x hx with rfl | ⟨t', ht', rfl⟩
    · exact ⟨⟨0, 0, by positivity, by simp⟩, by positivity⟩
    · exact hv t' ht'

theorem pickRoot_or (rnd eval : Fl f → Fl f) (z : Fl f) : pickRoot rnd eval z = z ∨ pickRoot rnd eval z = rnd z := by
  unfold pickRoot
  split
  · exact .inr rfl
  · exact .inl rfl

omit [Cbrt (Fl f)] in
theorem absLess_iff (x y : Fl f) : absLess x y = true ↔ AbsBelow x y := by
  have hlt : ∀ (s t : Bool) (a b : Nat), |(fin s a : Fl f).toRat| < |(fin t b : Fl f).toRat| ↔ a < b := by
    intro s t a b
    have h : ∀ (s : Bool) (a : Nat), |(fin s a : Fl f).toRat| = a / 2 ^ f.q := by
      intro s a
      have : (0 : ℚ) ≤ a / 2 ^ f.q := by positivity
      cases s <;> simp [toRat, abs_of_nonneg this]
    rw [h, h, div_lt_div_iff_of_pos_right (by positivity)]
    exact_mod_cast Iff.rfl
  unfold AbsBelow
  cases x with
  | nan => simp [absLess, isFinite]
  | inf s => cases y <;> simp [absLess, isFinite]
  | fin s a =>
    cases y with
    | nan => simp [absLess]
    | inf t => simp [absLess, isFinite]
    | fin t b => simp [absLess, isFinite, hlt]

example : AbsBelow (-1 : Fl binary64) (ofNat 2) ∧ ¬ AbsBelow (1 : Fl binary64) (-1) ∧ AbsBelow (1 : Fl binary64) (.inf true) ∧
    ¬ AbsBelow (1 : Fl binary64) .nan := by
  refine ⟨(absLess_iff _ _).1 ?_, fun h => absurd ((absLess_iff _ _).2 h) ?_, (absLess_iff _ _).1 ?_,
    fun h => absurd ((absLess_iff _ _).2 h) ?_⟩ <;> decide +kernel

theorem pickRoot_chosen (rnd eval : Fl f → Fl f) (z : Fl f) : Chosen rnd eval z (pickRoot rnd eval z) := by
  unfold Chosen pickRoot
  rw [← absLess_iff]
  constructor <;> intro h <;> simp [h]

theorem Runs.weaken {ι α : Type} {may may' : Prop} {e : ι → Prop} {P : α → Prop} {g : ι → Res α} (h : Runs may e P g)
    (hm : may → may') : Runs may' e P g := by
  rcases h with h | ⟨h1, h2⟩
  · exact .inl h
  · exact .inr ⟨hm h1, h2⟩

/-- The cases that do not need the solver. -/
theorem findRoots_closed {c : Nat → Fl f} {vals : List (Fl f × Nat)} (h : Coeffs vals c)
    (oracle : List (Fl f) → List (Fl f)) (rnd eval : Fl f → Fl f) (degree : Degree)
    (hd : degree = headDegree vals) :
    (∃ out, RootsOutcome oracle rnd eval c out degree ∧ ∀ fuel, findRoots oracle rnd fuel vals degree eval = .ok out) ∨
    ∃ a d t ts, vals = (a, d + 4) :: t :: ts ∧ ¬ (∀ k, k < d + 4 → isZero (c k) = true) ∧ degree = .num (d + 4) := by
  have red : ∀ r, findRootsSpecial vals = .ok (some r) →
      ∀ fuel, findRoots oracle rnd fuel vals degree eval = .ok r := by
    intro r hr fuel
    unfold findRoots
    rw [hr, Res.ok_bind]
  have hne : ∀ a n t ts, vals = (a, n) :: t :: ts → ¬ (∀ k, k < n → isZero (c k) = true) := by
    rintro a n t ts rfl hz
    have := hz t.2 ((List.pairwise_cons.1 h.desc).1 t (by simp))
    have h1 := h.coef t (by simp)
    rw [h1.2, h1.1] at this
    cases this
  rcases special_eq h with ⟨rfl, hs⟩ | ⟨a, rfl, hs⟩ | ⟨a, n, rfl, hs⟩ | ⟨a, b, rfl, hs⟩ | ⟨a, t, ts, r, rfl, hr, hs⟩ |
    ⟨a, t, ts, r, rfl, hr, hs⟩ | ⟨a, d, t, ts, rfl, hs⟩
  · subst hd; exact .inl ⟨_, rfl, red _ hs⟩
  · subst hd; exact .inl ⟨_, rfl, red _ hs⟩
  · subst hd
    refine .inl ⟨_, ?_, red _ hs⟩
    show RootsOutcome _ _ _ _ _ (.num (n + 1))
    unfold RootsOutcome
    dsimp only
    rw [if_pos]
    intro k hk
    rw [h.none k (by simp; omega)]
    rfl
  · subst hd
    refine .inl ⟨_, ?_, red _ hs⟩
    show RootsOutcome _ _ _ _ _ (.num (0 + 1))
    unfold RootsOutcome
    dsimp only
    rw [if_neg (hne _ _ _ _ rfl)]
  · subst hd
    refine .inl ⟨_, ?_, red _ hs⟩
    show RootsOutcome _ _ _ _ _ (.num (1 + 1))
    unfold RootsOutcome
    dsimp only
    rw [if_neg (hne _ _ _ _ rfl)]
    exact ⟨r, hr, rfl⟩
  · subst hd
    refine .inl ⟨_, ?_, red _ hs⟩
    show RootsOutcome _ _ _ _ _ (.num (2 + 1))
    unfold RootsOutcome
    dsimp only
    rw [if_neg (hne _ _ _ _ rfl)]
    exact ⟨r, hr, rfl⟩
  · subst hd
    exact .inr ⟨a, d, t, ts, rfl, hne _ _ _ _ rfl, rfl⟩

theorem findRoots_runs (hp : 1 ≤ f.p) (hw : f.q < f.w) {may : Prop} {J : Nat → List (Fl f) → Prop} {R : Fl f → Prop}
    (h : Defl may J R) {c : Nat → Fl f} {vals : List (Fl f × Nat)} (hc : Coeffs vals c) (hv : ∀ t ∈ vals, t.1.Valid)
    (oracle : List (Fl f) → List (Fl f)) (rnd eval : Fl f → Fl f) (degree : Degree)
    (hd : degree = headDegree vals)
    (hJ : ∀ d n, degree = .num d → 4 ≤ d → Lead d n → n.head? = some (c d) →
      (∀ x ∈ n, x = 0 ∨ ∃ t ∈ vals, x = t.1) → J d n)
    (hR : ∀ d, degree = .num d → ∀ l, l.length ≤ d → ∀ z ∈ oracle l, R (pickRoot rnd eval z)) :
    Runs (may ∧ ∃ d, degree = .num d ∧ 4 ≤ d) (fun fuel => ∀ d, degree = .num d → d + 1 ≤ fuel)
      (fun out => RootsOutcome oracle rnd eval c out degree)
      (fun fuel => findRoots oracle rnd fuel vals degree eval) := by
  rcases findRoots_closed hc oracle rnd eval degree hd with ⟨out, h1, h2⟩ | ⟨a, d, t, ts, rfl, hz, hd'⟩
  · exact .inl ⟨out, h1, fun fuel _ => h2 fuel, fun fuel => .inr (h2 fuel)⟩
  · clear hd
    subst hd'
    obtain ⟨v, n, e1, e2, e3, e4, e5, e6⟩ := findRoots_loop hc hv oracle rnd eval
    simp only [e1]
    have ha : c (d + 4) = a := (hc.coef (a, d + 4) (by simp)).2
    have hl := (loop_runs hp hw h oracle rnd eval (d + 4) (hR _ rfl) (d + 4) v n [] (by omega) e2 e4
      (hJ _ n rfl (by omega) e4 (by rw [ha]; exact e5) e6) (by simp)).comap (fun fuel : Nat => (fuel, fuel))
    refine Runs.weaken (Runs.mono hl (fun fuel hf => ⟨hf _ rfl, hf _ rfl⟩) ?_) (fun hm => ⟨hm, d + 4, rfl, by omega⟩)
    intro out ho
    show RootsOutcome _ _ _ _ _ (.num (d + 3 + 1))
    unfold RootsOutcome
    dsimp only
    rw [if_neg hz]
    rw [e3] at ho
    rcases ho with ⟨_, h1, rfl⟩ | ⟨rs, h1, h2, h3, h4, h5⟩
    · exact ⟨⟨fun _ => h1, fun _ => rfl⟩, _, pickRoot_chosen rnd eval, trivial, .none h1⟩
    · have h2 : oracle (solverInput c (d + 4)) ≠ [] := by
        rcases h2 with h | h
        · exact absurd rfl h
        · exact h
      have h3 : ∀ r ∈ rs, ∃ l, ∃ z ∈ oracle l, r = pickRoot rnd eval z := by
        intro r hr
        rcases h3 r hr with h | h
        · cases h
        · exact h
      rcases h4 with ⟨h4, rfl⟩ | ⟨h4, rfl⟩
      · exact ⟨⟨nofun, fun h => absurd h h2⟩, _, pickRoot_chosen rnd eval, ⟨h1, h4, h3⟩, h5⟩
      · exact ⟨⟨nofun, fun h => absurd h h2⟩, _, pickRoot_chosen rnd eval, ⟨h4, h3⟩, h5⟩

theorem dense_valid {p : Poly (Fl f)} (h : ∀ x ∈ p.terms, x.Valid) : ∀ t ∈ p.termsAsVec, t.1.Valid := by
  intro t ht
  have h1 : t ∈ descTerms p.terms := by
    rw [← orderedTermIter_eq]; exact ht
  revert h h1
  generalize p.terms = l
  intro h h1
  induction l with
  | nil => simp [descTerms] at h1
  | cons a cs ih =>
    rw [descTerms] at h1
    split at h1
    · exact ih (fun x hx => h x (by simp [hx])) h1
    · rcases List.mem_cons.1 h1 with rfl | h1
      · exact h a (by simp)
      · exact ih (fun x hx => h x (by simp [hx])) h1

theorem sparse_valid {p : Sparse (Fl f)} (h : ∀ e ∈ p.terms.entries, e.2.Valid) : ∀ t ∈ p.termsAsVec, t.1.Valid := by
  intro t ht
  unfold Sparse.termsAsVec Sparse.orderedTermIter at ht
  simp only [List.mem_filterMap, List.mem_reverse] at ht
  obtain ⟨⟨k, x⟩, hm, he⟩ := ht
  split at he
  · simp at he
  · injection he with he
    subst he
    exact h _ hm

/-- C90: `Polynomial<f64>::roots` with rounding, infinities and NaN, whatever the external solver answers and
whatever `cbrt` computes: it never panics; up to degree three it always returns what the formulas give; from
degree four it either returns real roots found by the solver (after at most as many rounds as the degree), or it
never returns. -/
theorem C90_dense_roots (hp : 1 ≤ f.p) (hw : f.q < f.w) (oracle : List (Fl f) → List (Fl f)) (rnd : Fl f → Fl f)
    (p : Poly (Fl f)) (hv : ∀ x ∈ p.terms, x.Valid) :
    (∃ out, RootsOutcome oracle rnd p.eval p.coefAt out p.degree ∧
      (∀ fuel, (∀ d, p.degree = .num d → d + 1 ≤ fuel) → p.roots oracle rnd fuel = .ok out) ∧
      ∀ fuel, p.roots oracle rnd fuel = .fuel ∨ p.roots oracle rnd fuel = .ok out) ∨
    ((∃ d, p.degree = .num d ∧ 4 ≤ d) ∧ ∀ fuel, p.roots oracle rnd fuel = .fuel) :=
  Runs.weaken (findRoots_runs hp hw (defl_any hp) (dense_coeffs p) (dense_valid hv) oracle rnd p.eval p.degree
    (dense_degree p) (fun _ _ _ _ _ _ _ => trivial) (fun _ _ _ _ _ _ => trivial)) And.right

/-- C90: the same for `SparsePolynomial<f64>::roots`. -/
theorem C90_sparse_roots [PowUsize (Fl f)] (hp : 1 ≤ f.p) (hw : f.q < f.w) (oracle : List (Fl f) → List (Fl f))
    (rnd : Fl f → Fl f) (p : Sparse (Fl f)) (hv : ∀ e ∈ p.terms.entries, e.2.Valid) :
    (∃ out, RootsOutcome oracle rnd p.eval p.coefAt out p.degree ∧
      (∀ fuel, (∀ d, p.degree = .num d → d + 1 ≤ fuel) → p.roots oracle rnd fuel = .ok out) ∧
      ∀ fuel, p.roots oracle rnd fuel = .fuel ∨ p.roots oracle rnd fuel = .ok out) ∨
    ((∃ d, p.degree = .num d ∧ 4 ≤ d) ∧ ∀ fuel, p.roots oracle rnd fuel = .fuel) :=
  Runs.weaken (findRoots_runs hp hw (defl_any hp) (sparse_coeffs p) (sparse_valid hv) oracle rnd p.eval p.degree
    (sparse_degree p) (fun _ _ _ _ _ _ _ => trivial) (fun _ _ _ _ _ _ => trivial)) And.right

theorem budget_start {c : Nat → Fl f} {vals : List (Fl f × Nat)} {α lam ρ d : Nat} {n : List (Fl f)}
    (hα : ∀ t ∈ vals, t.1.isFinite = true ∧ |t.1.toRat| ≤ 2 ^ α) (hlam : 1 ≤ |(c d).toRat| * 2 ^ lam)
    (hw : α + lam + (ρ + 1) * (d * (d - 1) / 2) + f.q < f.w) (hl : Lead d n) (hn : n.head? = some (c d))
    (hm : ∀ x ∈ n, x = 0 ∨ ∃ t ∈ vals, x = t.1) : Budget f ρ lam d n := by
  obtain ⟨n0, ns, rfl, _⟩ := hl
  simp at hn
  refine ⟨α, n0, ns, rfl, ?_, .inr ⟨by rw [hn]; exact hlam, hw⟩⟩
  intro x hx
  rcases hm x hx with rfl | ⟨t, ht, rfl⟩
  · refine ⟨rfl, ?_⟩
    rw [toRat_of_isZero (by rfl), abs_zero]
    positivity
  · exact hα t ht

/-- C90: `roots()` returns if the numbers stay well inside the range of the format: coefficients at most
`2^α`, a leading coefficient of at least `2^-λ`, and solver results at most `2^ρ`, where
`α + λ + (ρ + 1)·d(d-1)/2` is below the largest exponent. -/
theorem C90_returns (hp : 1 ≤ f.p) (hpw : f.p ≤ f.w) (oracle : List (Fl f) → List (Fl f)) (α lam ρ d : Nat)
    (hw : α + lam + (ρ + 1) * (d * (d - 1) / 2) + f.q < f.w)
    (ho : ∀ l, l.length ≤ d → ∀ z ∈ oracle l, z.isFinite = true ∧ |z.toRat| ≤ 2 ^ ρ) :
    (∀ p : Poly (Fl f), p.degree = .num d → (∀ x ∈ p.terms, x.Valid ∧ x.isFinite = true ∧ |x.toRat| ≤ 2 ^ α) →
      1 ≤ |(p.coefAt d).toRat| * 2 ^ lam →
      ∃ out, RootsOutcome oracle round p.eval p.coefAt out p.degree ∧ ∀ fuel, d + 1 ≤ fuel → p.roots oracle round fuel = .ok out) ∧
    (∀ [PowUsize (Fl f)], ∀ p : Sparse (Fl f), p.degree = .num d →
      (∀ e ∈ p.terms.entries, e.2.Valid ∧ e.2.isFinite = true ∧ |e.2.toRat| ≤ 2 ^ α) →
      1 ≤ |(p.coefAt d).toRat| * 2 ^ lam →
      ∃ out, RootsOutcome oracle round p.eval p.coefAt out p.degree ∧ ∀ fuel, d + 1 ≤ fuel → p.roots oracle round fuel = .ok out) := by
  have hR : ∀ (eval : Fl f → Fl f) d' , Degree.num d = .num d' → ∀ l, l.length ≤ d' → ∀ z ∈ oracle l,
      (pickRoot round eval z).isFinite = true ∧ |(pickRoot round eval z).toRat| ≤ 2 ^ ρ := by
    intro eval d' hd l hl z hz
    cases hd
    have h1 := ho l hl z hz
    rcases pickRoot_or round eval z with h | h
    · rw [h]; exact h1
    · rw [h]; exact round_below z ρ h1.1 h1.2
  have hqw : f.q < f.w := by omega
  constructor
  · intro p hd hx hlam
    have hα : ∀ t ∈ p.termsAsVec, t.1.isFinite = true ∧ |t.1.toRat| ≤ 2 ^ α := by
      intro t ht
      have h1 : t ∈ descTerms p.terms := by rw [← orderedTermIter_eq]; exact ht
      have h2 : ∀ l : List (Fl f), t ∈ descTerms l → t.1 ∈ l := by
        intro l
        induction l with
        | nil => simp [descTerms]
        | cons a cs ih =>
          intro h
          rw [descTerms] at h
          split at h
          · exact List.mem_cons_of_mem _ (ih h)
          · rcases List.mem_cons.1 h with rfl | h
            · simp
            · exact List.mem_cons_of_mem _ (ih h)
      exact (hx _ (h2 _ h1)).2
    rcases findRoots_runs hp hqw (defl_bounded hp hpw ρ lam) (dense_coeffs p) (dense_valid fun x h => (hx x h).1) oracle
      round p.eval p.degree (dense_degree p)
      (fun d' n h1 _ hl hn hm => by
        rw [hd] at h1; cases h1
        exact budget_start hα hlam hw hl hn hm)
      (by rw [hd]; exact hR p.eval) with ⟨out, h1, h2, _⟩ | ⟨h, _⟩
    · refine ⟨out, h1, fun fuel hf => h2 fuel fun d' h => ?_⟩
      rw [hd] at h; cases h
      exact hf
    · exact h.1.elim
  · intro _ p hd hx hlam
    have hα : ∀ t ∈ p.termsAsVec, t.1.isFinite = true ∧ |t.1.toRat| ≤ 2 ^ α := by
      intro t ht
      unfold Sparse.termsAsVec Sparse.orderedTermIter at ht
      simp only [List.mem_filterMap, List.mem_reverse] at ht
      obtain ⟨⟨k, x⟩, hm, he⟩ := ht
      split at he
      · simp at he
      · injection he with he
        subst he
        exact (hx _ hm).2
    rcases findRoots_runs hp hqw (defl_bounded hp hpw ρ lam) (sparse_coeffs p) (sparse_valid fun x h => (hx x h).1) oracle
      round p.eval p.degree (sparse_degree p)
      (fun d' n h1 _ hl hn hm => by
        rw [hd] at h1; cases h1
        exact budget_start hα hlam hw hl hn hm)
      (by rw [hd]; exact hR p.eval) with ⟨out, h1, h2, _⟩ | ⟨h, _⟩
    · refine ⟨out, h1, fun fuel hf => h2 fuel fun d' h => ?_⟩
      rw [hd] at h; cases h
      exact hf
    · exact h.1.elim

/-- Solver results and formulas are never reported as infinitely many roots. -/
theorem outcome_infinite {oracle : List (Fl f) → List (Fl f)} {rnd eval : Fl f → Fl f} {c : Nat → Fl f} {degree : Degree}
    (h : RootsOutcome oracle rnd eval c .infiniteRoots degree) : degree = .negInf := by
  unfold RootsOutcome at h
  split at h
  · rfl
  · cases h
  · rename_i d
    split at h
    · cases h
    · exfalso
      split at h
      · cases h
      · obtain ⟨r, h1, h2⟩ := h
        obtain ⟨r', h3, ⟨x, y, rfl⟩ | ⟨x, y, rfl⟩⟩ := trinomial_two (c 2) (c 1) (c 0)
        · rw [h1] at h3; cases h3; cases h2
        · rw [h1] at h3; cases h3; cases h2
      · obtain ⟨r, h1, h2⟩ := h
        obtain ⟨r', h3, ⟨x, y, z, rfl⟩ | ⟨x, y, z, rfl⟩⟩ := cubic_three (c 3) (c 2) (c 1) (c 0)
        · rw [h1] at h3; cases h3; cases h2
        · rw [h1] at h3; cases h3; cases h2
      · obtain ⟨_, _, _, h, _⟩ := h
        exact h

/-- C90: infinitely many roots are reported for the zero polynomial and for no other, also with NaN or infinite
coefficients. -/
theorem C90_infinite_iff (hp : 1 ≤ f.p) (hw : f.q < f.w) (oracle : List (Fl f) → List (Fl f)) (rnd : Fl f → Fl f)
    (fuel : Nat) :
    (∀ p : Poly (Fl f), (∀ x ∈ p.terms, x.Valid) →
      (p.roots oracle rnd fuel = .ok .infiniteRoots ↔ ∀ x ∈ p.terms, isZero x = true)) ∧
    (∀ [PowUsize (Fl f)], ∀ p : Sparse (Fl f), (∀ e ∈ p.terms.entries, e.2.Valid) →
      (p.roots oracle rnd fuel = .ok .infiniteRoots ↔ ∀ e ∈ p.terms.entries, isZero e.2 = true)) := by
  constructor
  · intro p hv
    have hd : p.degree = .negInf ↔ ∀ x ∈ p.terms, isZero x = true := by
      show denseDegree p.terms = _ ↔ _
      rw [denseDegree_eq]
      cases h : p.terms.dropWhile isZero with
      | nil => simpa using List.dropWhile_eq_nil_iff.1 h
      | cons a as =>
        simp only [reduceCtorEq, false_iff]
        intro hz
        rw [List.dropWhile_eq_nil_iff.2 hz] at h
        cases h
    rw [← hd]
    constructor
    · intro h
      rcases C90_dense_roots hp hw oracle rnd p hv with ⟨out, h1, _, h2⟩ | ⟨_, h1⟩
      · rcases h2 fuel with h2 | h2
        · rw [h] at h2; cases h2
        · rw [h] at h2; cases h2
          exact outcome_infinite h1
      · rw [h1] at h; cases h
    · intro h
      rcases C90_dense_roots hp hw oracle rnd p hv with ⟨out, h1, h2, _⟩ | ⟨⟨d, h1, _⟩, _⟩
      · rw [h] at h1 h2
        rw [h2 fuel (by simp), show out = _ from h1]
      · rw [h] at h1; cases h1
  · intro _ p hv
    have hd : p.degree = .negInf ↔ ∀ e ∈ p.terms.entries, isZero e.2 = true := by
      show sparseDegree p.terms = _ ↔ _
      rcases firstTerm_last p.terms with ⟨_, h2, h3⟩ | ⟨k, c, _, h2, h3, h4, h5⟩
      · rw [h2]
        simp only [true_iff]
        exact fun e he => h3 e.1 e.2 ((BMap.mem_entries ..).1 he)
      · rw [h2]
        simp only [reduceCtorEq, false_iff]
        intro hz
        have := hz (k, c) ((BMap.mem_entries ..).2 h3)
        simp only at this
        rw [h4] at this; cases this
    rw [← hd]
    constructor
    · intro h
      rcases C90_sparse_roots hp hw oracle rnd p hv with ⟨out, h1, _, h2⟩ | ⟨_, h1⟩
      · rcases h2 fuel with h2 | h2
        · rw [h] at h2; cases h2
        · rw [h] at h2; cases h2
          exact outcome_infinite h1
      · rw [h1] at h; cases h
    · intro h
      rcases C90_sparse_roots hp hw oracle rnd p hv with ⟨out, h1, h2, _⟩ | ⟨⟨d, h1, _⟩, _⟩
      · rw [h] at h1 h2
        rw [h2 fuel (by simp), show out = _ from h1]
      · rw [h] at h1; cases h1

theorem toRat_plusZero (x : Fl f) : (plusZero x).toRat = x.toRat := by
  unfold plusZero
  split
  · rename_i h; rw [toRat_of_isZero h, toRat_of_isZero (by rfl)]
  · rfl

/-- The coefficients of the exact polynomial. -/
theorem coefAt_dense (p : Poly (Fl f)) (k : Nat) : (p.coefAt k).toRat = (descPoly (p.terms.map toRat)).coeff k := by
  unfold Poly.coefAt
  rw [toRat_plusZero]
  generalize p.terms = l
  induction l with
  | nil => simp [toRat_of_isZero (show isZero (0 : Fl f) = true from rfl)]
  | cons a cs ih =>
    rw [List.map_cons, descPoly_cons, coeff_add, coeff_C_mul, coeff_X_pow, List.length_map, ← ih, List.reverse_cons,
      List.getD_eq_getElem?_getD, List.getD_eq_getElem?_getD]
    have h0 : (0 : Fl f).toRat = 0 := toRat_of_isZero (by rfl)
    rcases lt_trichotomy k cs.length with h | h | h
    · rw [List.getElem?_append_left (by simpa using h), if_neg (by omega)]
      simp
    · subst h
      rw [List.getElem?_append_right (by simp), List.getElem?_eq_none (l := cs.reverse) (by simp)]
      simp [h0]
    · rw [List.getElem?_eq_none (by simp; omega), List.getElem?_eq_none (by simp; omega), if_neg (by omega)]
      simp [h0]

/-- The coefficients of the exact polynomial. -/
theorem coefAt_sparse (p : Sparse (Fl f)) (k : Nat) : (p.coefAt k).toRat = p.ratPoly.coeff k := by
  unfold Sparse.coefAt
  rw [toRat_plusZero, coeff_rat]
  cases p.terms.get k with
  | none => exact toRat_of_isZero (by rfl)
  | some x => rfl

theorem outcome_linear {oracle : List (Fl f) → List (Fl f)} {rnd eval : Fl f → Fl f} {c : Nat → Fl f} {out : Roots (Fl f)}
    (hp : 1 ≤ f.p) (h : RootsOutcome oracle rnd eval c out (.num 1)) (h0 : (c 0).isFinite = true) (h1 : (c 1).isFinite = true)
    (h1' : (c 1).toRat ≠ 0) :
    ∃ r, out = .manyRealRoots [r] ∧ (r.isFinite = true → ∀ z : Fl f, z.Valid → z.isFinite = true →
      |r.toRat - -(c 0).toRat / (c 1).toRat| ≤ |z.toRat - -(c 0).toRat / (c 1).toRat|) := by
  have h : if ∀ k, k < 0 + 1 → isZero (c k) = true then out = .manyRealRoots [0]
    else out = .manyRealRoots [Fl.div (-c 0) (c 1)] := h
  split at h
  · rename_i hz
    refine ⟨0, h, fun _ z hz1 hz2 => ?_⟩
    rw [(isZero_iff_toRat h0).1 (hz 0 (by omega)), toRat_of_isZero (show isZero (0 : Fl f) = true from rfl)]
    simp
  · refine ⟨_, h, fun hf z hz1 hz2 => ?_⟩
    have := (C65_nearest hp (-c 0) (c 1) z hz1 hz2).2.2.2 (by rw [isFinite_neg]; exact h0) h1 h1' hf
    rwa [toRat_neg] at this

/-- C90: the root of a polynomial of degree one is the number of the format nearest to the exact root, unless it
overflows. -/
theorem C90_linear (hp : 1 ≤ f.p) (hw : f.q < f.w) (oracle : List (Fl f) → List (Fl f)) (rnd : Fl f → Fl f)
    (fuel : Nat) (hfuel : 2 ≤ fuel) (P : ℚ[X]) (hP : P.natDegree = 1) :
    (∀ p : Poly (Fl f), (∀ x ∈ p.terms, x.Valid ∧ x.isFinite = true) → descPoly (p.terms.map toRat) = P →
      ∃ r, p.roots oracle rnd fuel = .ok (.manyRealRoots [r]) ∧ (r.isFinite = true →
        ∀ z : Fl f, z.Valid → z.isFinite = true →
          |r.toRat - -P.coeff 0 / P.coeff 1| ≤ |z.toRat - -P.coeff 0 / P.coeff 1|)) ∧
    (∀ [PowUsize (Fl f)], ∀ p : Sparse (Fl f), (∀ e ∈ p.terms.entries, e.2.Valid ∧ e.2.isFinite = true) → p.ratPoly = P →
      ∃ r, p.roots oracle rnd fuel = .ok (.manyRealRoots [r]) ∧ (r.isFinite = true →
        ∀ z : Fl f, z.Valid → z.isFinite = true →
          |r.toRat - -P.coeff 0 / P.coeff 1| ≤ |z.toRat - -P.coeff 0 / P.coeff 1|)) := by
  have hP0 : P ≠ 0 := by rintro rfl; simp at hP
  have hdeg : ∀ D : Degree, D.toWithBot = P.degree → D = .num 1 := by
    intro D hD
    rw [degree_eq_natDegree hP0, hP] at hD
    cases D with
    | negInf => cases hD
    | num n =>
      have hD' : (n : WithBot ℕ) = 1 := hD
      have : n = 1 := by exact_mod_cast hD'
      rw [this]
  have h1 : P.coeff 1 ≠ 0 := by
    have := leadingCoeff_ne_zero.2 hP0
    rwa [leadingCoeff, hP] at this
  have hfin : ∀ x : Fl f, x.toRat ≠ 0 → x.isFinite = true := by
    intro x hx
    cases x with
    | fin s m => rfl
    | _ => exact absurd rfl hx
  have hpz : ∀ x : Fl f, x.isFinite = true → (plusZero x).isFinite = true := by
    intro x hx
    unfold plusZero
    split
    · rfl
    · exact hx
  constructor
  · intro p hx he
    have hd := hdeg p.degree (by rw [← he]; exact (C86_dense p p fun c hc => (hx c hc).2).1)
    have hc := fun k => coefAt_dense p k
    rw [he] at hc
    rcases C90_dense_roots hp hw oracle rnd p (fun x h => (hx x h).1) with ⟨out, h3, h4, _⟩ | ⟨⟨d, h5, h6⟩, _⟩
    · rw [hd] at h3 h4
      rw [h4 fuel (fun d h => by cases h; exact hfuel), ← hc 0, ← hc 1]
      obtain ⟨r, h5, h6⟩ := outcome_linear hp h3 (by
        refine hpz _ ?_
        rw [List.getD_eq_getElem?_getD]
        cases hg : p.terms.reverse[0]? with
        | none => rfl
        | some x => exact (hx x (by simpa using List.mem_of_getElem? hg)).2)
        (hfin _ (by rw [hc]; exact h1)) (by rw [hc]; exact h1)
      exact ⟨r, by rw [h5], h6⟩
    · rw [hd] at h5; cases h5; omega
  · intro _ p hx he
    have hd := hdeg p.degree (by rw [← he]; exact (C85_degree p fun c hc => (hx c hc).2).1)
    have hc := fun k => coefAt_sparse p k
    rw [he] at hc
    rcases C90_sparse_roots hp hw oracle rnd p (fun x h => (hx x h).1) with ⟨out, h3, h4, _⟩ | ⟨⟨d, h5, h6⟩, _⟩
    · rw [hd] at h3 h4
      rw [h4 fuel (fun d h => by cases h; exact hfuel), ← hc 0, ← hc 1]
      obtain ⟨r, h5, h6⟩ := outcome_linear hp h3 (by
        refine hpz _ ?_
        cases hg : p.terms.get 0 with
        | none => rfl
        | some x => exact (hx (0, x) ((BMap.mem_entries ..).2 hg)).2)
        (hfin _ (by rw [hc]; exact h1)) (by rw [hc]; exact h1)
      exact ⟨r, by rw [h5], h6⟩
    · rw [hd] at h5; cases h5; omega

theorem degree_of_nat {P : ℚ[X]} {n : Nat} (hn : n ≠ 0) (hP : P.natDegree = n) {D : Degree}
    (hD : D.toWithBot = P.degree) : D = .num n := by
  have hP0 : P ≠ 0 := by rintro rfl; exact hn (by simpa using hP.symm)
  rw [degree_eq_natDegree hP0, hP] at hD
  cases D with
  | negInf => cases hD
  | num m =>
    have hD' : (m : WithBot ℕ) = n := hD
    have : m = n := by exact_mod_cast hD'
    rw [this]

theorem outcome_quadratic {oracle : List (Fl f) → List (Fl f)} {rnd eval : Fl f → Fl f} {c : Nat → Fl f} {out : Roots (Fl f)}
    {P : ℚ[X]} (hp : 4 ≤ f.p) (hq : 2 * f.p ≤ f.q) (hw : f.p + f.q < f.w)
    (h : RootsOutcome oracle rnd eval c out (.num 2)) (hc : ∀ k, (c k).toRat = P.coeff k) (hP : P.natDegree = 2)
    (h01 : P.coeff 0 ≠ 0 ∨ P.coeff 1 ≠ 0) (h2 : |P.coeff 2| * 2 ≤ maxFinite f) (hv : (c 2).Valid) (S : ℝ)
    (hS : S = (P.coeff 1 : ℝ) ^ 2 + 4 * |(P.coeff 2 : ℝ) * P.coeff 0|) (ε : ℝ)
    (hε : ε = (3 * uro f * √S + √(3 * uro f * S + 6 * eta f)) / |(P.coeff 2 : ℝ)| + 3 * eta f) :
    ∃ r, out = r.many ∧ ((∃ x y, r = .twoRealRoots x y) ∨ ∃ x y, r = .twoComplexRoots x y) ∧
      ∀ w₁ w₂ : ℂ, FinitePair r w₁ w₂ → ∃ z₁ z₂ : ℂ,
        (∀ z : ℂ, aeval z P = P.coeff 2 * (z - z₁) * (z - z₂)) ∧ ‖w₁ - z₁‖ ≤ ε ∧ ‖w₂ - z₂‖ ≤ ε := by
  have h : if ∀ k, k < 1 + 1 → isZero (c k) = true then out = .manyRealRoots [0]
    else ∃ r, trinomialRoots (c 2) (c 1) (c 0) = .ok r ∧ out = r.many := h
  have hP0 : P ≠ 0 := by rintro rfl; simp at hP
  have hP2 : P.coeff 2 ≠ 0 := by
    have := leadingCoeff_ne_zero.2 hP0
    rwa [leadingCoeff, hP] at this
  rw [if_neg] at h
  · obtain ⟨r, h1, h3⟩ := h
    obtain ⟨r', h4, h5⟩ := trinomial_two (c 2) (c 1) (c 0)
    rw [h1] at h4
    cases h4
    refine ⟨r, h3, h5, fun w₁ w₂ hw12 => ?_⟩
    obtain ⟨z₁, z₂, h6, h7⟩ := C84_roots_error hp hq hw (c 2) (c 1) (c 0) hv (by rw [hc]; exact hP2) (by rw [hc]; exact h2)
      r h1 w₁ w₂ hw12 S (by rw [hc, hc, hc]; exact hS) ε (by rw [hc]; exact hε)
    refine ⟨z₁, z₂, fun z => ?_, h7⟩
    rw [hc, hc, hc] at h6
    rw [← h6, aeval_eq_sum_range' (show P.natDegree < 3 by omega)]
    simp only [Finset.sum_range_succ, Finset.sum_range_zero, Algebra.smul_def]
    simp
    ring
  · intro hz
    rcases h01 with h | h
    · exact h (by rw [← hc]; exact toRat_of_isZero (hz 0 (by omega)))
    · exact h (by rw [← hc]; exact toRat_of_isZero (hz 1 (by omega)))

theorem coefAt_valid_dense {p : Poly (Fl f)} (h : ∀ x ∈ p.terms, x.Valid) (k : Nat) : (p.coefAt k).Valid := by
  have h0 : (0 : Fl f).Valid := ⟨⟨0, 0, by positivity, by simp⟩, by positivity⟩
  unfold Poly.coefAt plusZero
  split
  · exact h0
  · rw [List.getD_eq_getElem?_getD]
    cases hg : p.terms.reverse[k]? with
    | none => exact h0
    | some x => exact h x (by simpa using List.mem_of_getElem? hg)

theorem coefAt_valid_sparse {p : Sparse (Fl f)} (h : ∀ e ∈ p.terms.entries, e.2.Valid) (k : Nat) : (p.coefAt k).Valid := by
  have h0 : (0 : Fl f).Valid := ⟨⟨0, 0, by positivity, by simp⟩, by positivity⟩
  unfold Sparse.coefAt plusZero
  split
  · exact h0
  · cases hg : p.terms.get k with
    | none => exact h0
    | some x => exact h (k, x) ((BMap.mem_entries ..).2 hg)

/-- C90: a polynomial of degree two (other than `a x²`) has two roots, and they are, when finite, close to the two
exact complex roots, with the bound of C84. -/
theorem C90_quadratic (hp : 4 ≤ f.p) (hq : 2 * f.p ≤ f.q) (hw : f.p + f.q < f.w)
    (oracle : List (Fl f) → List (Fl f)) (rnd : Fl f → Fl f) (fuel : Nat) (hfuel : 3 ≤ fuel) (P : ℚ[X])
    (hP : P.natDegree = 2) (h01 : P.coeff 0 ≠ 0 ∨ P.coeff 1 ≠ 0) (h2 : |P.coeff 2| * 2 ≤ maxFinite f) (S : ℝ)
    (hS : S = (P.coeff 1 : ℝ) ^ 2 + 4 * |(P.coeff 2 : ℝ) * P.coeff 0|) (ε : ℝ)
    (hε : ε = (3 * uro f * √S + √(3 * uro f * S + 6 * eta f)) / |(P.coeff 2 : ℝ)| + 3 * eta f) (res : Res (Roots (Fl f)))
    (hres : (∃ p : Poly (Fl f), (∀ x ∈ p.terms, x.Valid ∧ x.isFinite = true) ∧ descPoly (p.terms.map toRat) = P ∧
        res = p.roots oracle rnd fuel) ∨
      (∃ (_ : PowUsize (Fl f)) (p : Sparse (Fl f)), (∀ e ∈ p.terms.entries, e.2.Valid ∧ e.2.isFinite = true) ∧
        p.ratPoly = P ∧ res = p.roots oracle rnd fuel)) :
    ∃ r, res = .ok r.many ∧ ((∃ x y, r = .twoRealRoots x y) ∨ ∃ x y, r = .twoComplexRoots x y) ∧
      ∀ w₁ w₂ : ℂ, FinitePair r w₁ w₂ → ∃ z₁ z₂ : ℂ,
        (∀ z : ℂ, aeval z P = P.coeff 2 * (z - z₁) * (z - z₂)) ∧ ‖w₁ - z₁‖ ≤ ε ∧ ‖w₂ - z₂‖ ≤ ε := by
  rcases hres with ⟨p, hx, he, rfl⟩ | ⟨_, p, hx, he, rfl⟩
  · have hd : p.degree = .num 2 :=
      degree_of_nat (by norm_num) hP (by rw [← he]; exact (C86_dense p p fun c hc => (hx c hc).2).1)
    have hc := fun k => coefAt_dense p k
    rw [he] at hc
    rcases C90_dense_roots (by omega) (by omega) oracle rnd p (fun x h => (hx x h).1) with ⟨out, h3, h4, _⟩ | ⟨⟨d, h5, h6⟩, _⟩
    · rw [hd] at h3 h4
      rw [h4 fuel (fun d h => by cases h; exact hfuel)]
      obtain ⟨r, h5, h6⟩ := outcome_quadratic hp hq hw h3 hc hP h01 h2 (coefAt_valid_dense (fun x h => (hx x h).1) 2) S hS ε hε
      exact ⟨r, by rw [h5], h6⟩
    · rw [hd] at h5; cases h5; omega
  · have hd : p.degree = .num 2 :=
      degree_of_nat (by norm_num) hP (by rw [← he]; exact (C85_degree p fun c hc => (hx c hc).2).1)
    have hc := fun k => coefAt_sparse p k
    rw [he] at hc
    rcases C90_sparse_roots (by omega) (by omega) oracle rnd p (fun x h => (hx x h).1) with ⟨out, h3, h4, _⟩ | ⟨⟨d, h5, h6⟩, _⟩
    · rw [hd] at h3 h4
      rw [h4 fuel (fun d h => by cases h; exact hfuel)]
      obtain ⟨r, h5, h6⟩ := outcome_quadratic hp hq hw h3 hc hP h01 h2 (coefAt_valid_sparse (fun x h => (hx x h).1) 2) S hS ε hε
      exact ⟨r, by rw [h5], h6⟩
    · rw [hd] at h5; cases h5; omega

/-! ## Endless loops -/

/-- C90 (false as a claim about termination): `2^1023 (x⁴ + x³ - x² - x)` is represented exactly, the solver is given
the coefficients 1, -1, -1, 0 and answers with the exact root 1, but `roots()` does not return: `find_roots`
deflates the polynomial before dividing by its leading coefficient, `2^1023 + 2^1023` overflows, and `div` loops
for ever. -/
theorem C90_overflow_false [Cbrt (Fl binary64)] (oracle : List (Fl binary64) → List (Fl binary64)) (rest : List (Fl binary64))
    (ho : oracle [1, -1, -1, 0] = 1 :: rest) (M : Fl binary64) (hM : M = ofNat (2 ^ 1023)) :
    (∀ c ∈ [M, M, -M, -M, 0], c.Valid ∧ c.isFinite = true) ∧
    ∀ fuel, (⟨[M, M, -M, -M, 0]⟩ : Poly (Fl binary64)).roots oracle round fuel = .fuel := by
  have hv : ∀ c ∈ [M, M, -M, -M, 0], c.Valid ∧ c.isFinite = true := by
    intro c hc
    have h0 : (fin false 0 : Fl binary64).Valid := ⟨⟨0, 0, by positivity, by simp⟩, by positivity⟩
    have hM' : M = fin false (2 ^ 2097) := by rw [hM]; decide +kernel
    have h1 : ∀ s, (fin s (2 ^ 2097) : Fl binary64).Valid := fun s => ⟨⟨1, 2097, by decide, by simp⟩,
      Nat.pow_lt_pow_right one_lt_two (by decide)⟩
    rw [hM'] at hc
    simp only [List.mem_cons, List.not_mem_nil, or_false] at hc
    rcases hc with rfl | rfl | rfl | rfl | rfl
    · exact ⟨h1 _, rfl⟩
    · exact ⟨h1 _, rfl⟩
    · exact ⟨h1 true, rfl⟩
    · exact ⟨h1 true, rfl⟩
    · exact ⟨h0, rfl⟩
  refine ⟨hv, fun fuel => ?_⟩
  have hr : ∀ eval, pickRoot round eval (1 : Fl binary64) = 1 := by
    intro eval
    rcases pickRoot_or round eval (1 : Fl binary64) with h | h
    · exact h
    · rw [h]; decide +kernel
  have h1 : (⟨[M, M, -M, -M, 0]⟩ : Poly (Fl binary64)).termsAsVec = [(M, 4), (M, 3), (-M, 2), (-M, 1)] := by
    rw [hM]; decide +kernel
  have h2 : fillValues M 4 [(M, 3), (-M, 2), (-M, 1)] (List.replicate 5 0) ((List.replicate 5 0).set 0 M) =
      .ok ([0, 1, -1, -1, 0], [M, M, -M, -M, 0]) := by
    rw [hM]; decide +kernel
  have hz : isZero M = false := by rw [hM]; decide +kernel
  have hs : ¬ ∀ b ∈ synth 1 M [M, -M, -M, 0], b.isFinite = true := by rw [hM]; decide +kernel
  clear hM
  unfold Poly.roots findRoots
  rw [h1]
  have h3 : findRootsSpecial [(M, 4), (M, 3), (-M, 2), (-M, 1)] = .ok none := rfl
  rw [h3, Res.ok_bind]
  dsimp only
  rw [h2, Res.ok_bind]
  dsimp only
  cases fuel with
  | zero => rfl
  | succ n =>
    have h4 : divRoot (n + 1) [M, M, -M, -M, 0] (1 : Fl binary64) = .fuel :=
      (C90_deflation (by decide) 1 M [M, -M, -M, 0] rfl hz (fun c hc => (hv c hc).1) (by simp)).2 hs _
    have h5 : sliceFrom ([0, 1, -1, -1, 0] : List (Fl binary64)) 1 = .ok [1, -1, -1, 0] := rfl
    rw [findRootsLoop, h5, Res.ok_bind]
    simp only [ho, List.isEmpty_cons, Bool.false_eq_true, if_false, deflate, hr, h4]
    rfl

/-! ## Concrete cases -/

section Examples

/-- Some function in the place of the cube root. -/
local instance exCbrt : Cbrt (Fl binary64) := ⟨fun x => x⟩

-- deflation of `x² - 3x + 2` by 1, and of `x² - 0.3x + 0.1` by 0.1 with rounding
example : divRoot 3 [1, -ofNat 3, ofNat 2] (1 : Fl binary64) = .ok [1, -ofNat 2] ∧
    synth 1 1 [-ofNat 3, ofNat 2] = [(1 : Fl binary64), -ofNat 2] := by decide +kernel
example : (match divRoot 3 [1, div (-ofNat 3) (ofNat 10), div 1 (ofNat 10)] (div 1 (ofNat 10) : Fl binary64) with
    | .ok [q, r] => decide (q = 1) && r.isFinite && decide (r.toRat ≠ -1 / 5)
    | _ => false) = true := by decide +kernel

-- a polynomial of degree four and a solver that finds all roots, two of them not quite
example : (⟨[1, 0, -ofNat 5, 0, ofNat 4]⟩ : Poly (Fl binary64)).roots
    (fun _ => [-ofNat 2, div (-ofNat 999) (ofNat 1000), 1, div (ofNat 2001) (ofNat 1000)]) round 5 =
    .ok (.manyRealRoots [-ofNat 2, -1, 1, ofNat 2]) := by decide +kernel
-- a solver that finds one root and then nothing more
example : (⟨[1, 0, 0, 0, -1]⟩ : Poly (Fl binary64)).roots (fun l => if l.length = 4 then [1] else []) round 5 =
    .ok (.onlyRealRoots [1]) := by decide +kernel
example : (⟨[1, 0, 0, 0, 1]⟩ : Poly (Fl binary64)).roots (fun _ => []) round 5 = .ok .noRoots := by decide +kernel
-- degrees up to three
example : (⟨[0, 0]⟩ : Poly (Fl binary64)).roots (fun _ => []) round 0 = .ok .infiniteRoots ∧
    (⟨[nan]⟩ : Poly (Fl binary64)).roots (fun _ => []) round 0 = .ok .noRoots ∧
    (⟨[ofNat 3, 1]⟩ : Poly (Fl binary64)).roots (fun _ => []) round 0 =
      .ok (.manyRealRoots [div (-1) (ofNat 3)]) := by decide +kernel
example : (⟨[1, -ofNat 3, ofNat 2]⟩ : Poly (Fl binary64)).roots (fun _ => []) round 0 =
    .ok (.manyRealRoots [ofNat 2, 1]) := by decide +kernel

-- the hypotheses of `C90_returns`: degree four, coefficients at most 2^3, roots at most 2
example (oracle : List (Fl binary64) → List (Fl binary64))
    (ho : ∀ l, l.length ≤ 4 → ∀ z ∈ oracle l, z.isFinite = true ∧ |z.toRat| ≤ 2 ^ 1) :
    ∃ out, ∀ fuel, 5 ≤ fuel → (⟨[1, 0, -ofNat 5, 0, ofNat 4]⟩ : Poly (Fl binary64)).roots oracle round fuel = .ok out := by
  have e5 : (ofNat 5 : Fl binary64) = fin false (5 * 2 ^ 1074) := by decide +kernel
  have e4 : (ofNat 4 : Fl binary64) = fin false (1 * 2 ^ 1076) := by decide +kernel
  have hb : ∀ x ∈ ([1, 0, -ofNat 5, 0, ofNat 4] : List (Fl binary64)), x.isFinite = true ∧ |x.toRat| ≤ 2 ^ 3 := by
    decide +kernel
  have hv : ∀ x ∈ ([1, 0, -ofNat 5, 0, ofNat 4] : List (Fl binary64)), x.Valid := by
    have h : ∀ s k e, k < 2 ^ 3 → e < 2000 → (fin s (k * 2 ^ e) : Fl binary64).Valid := by
      intro s k e hk he
      refine ⟨⟨k, e, hk.trans (by decide), rfl⟩, ?_⟩
      calc k * 2 ^ e < 2 ^ 3 * 2 ^ e := Nat.mul_lt_mul_of_pos_right hk (by positivity)
        _ = 2 ^ (3 + e) := (pow_add ..).symm
        _ ≤ _ := Nat.pow_le_pow_right (by norm_num) (show 3 + e ≤ 2098 by omega)
    have e1 : (1 : Fl binary64) = fin false (1 * 2 ^ 1074) := by decide +kernel
    have e0 : (0 : Fl binary64) = fin false (0 * 2 ^ 0) := by decide +kernel
    rw [e5, e4, e1, e0]
    intro x hx
    simp only [List.mem_cons, List.not_mem_nil, or_false] at hx
    rcases hx with rfl | rfl | rfl | rfl | rfl
    · exact h false 1 1074 (by norm_num) (by norm_num)
    · exact h false 0 0 (by norm_num) (by norm_num)
    · exact h true 5 1074 (by norm_num) (by norm_num)
    · exact h false 0 0 (by norm_num) (by norm_num)
    · exact h false 1 1076 (by norm_num) (by norm_num)
  obtain ⟨out, _, h⟩ := (C90_returns (f := binary64) (by decide) (by decide) oracle 3 0 1 4 (by decide) ho).1
    ⟨[1, 0, -ofNat 5, 0, ofNat 4]⟩ (by decide +kernel) (fun x hx => ⟨hv x hx, hb x hx⟩) (by decide +kernel)
  exact ⟨out, h⟩

-- rounding: 2.5 to 3, -0.4 to -0
example : round (div (ofNat 5) (ofNat 2) : Fl binary64) = ofNat 3 ∧
    round (div (-ofNat 2) (ofNat 5) : Fl binary64) = fin true 0 := by decide +kernel

end Examples

end Fl
end Rustnomial
