import Verif.SpecFloatLaws
import Verif.Props.FloatShape
import Verif.Props.FloatDiv
import Verif.Props.FloatFindRoots
import Verif.Props.Stored

/-!
# Laws that hold in floating point (C115)
-/

namespace Rustnomial
namespace Fl
variable {f : FlFmt}

namespace SameNum

theorem refl (x : Fl f) : SameNum x x := .inl rfl

theorem symm {x y : Fl f} (h : SameNum x y) : SameNum y x := by
  rcases h with h | ⟨h1, h2⟩
  exacts [.inl h.symm, .inr ⟨h2, h1⟩]

theorem trans {x y z : Fl f} (h : SameNum x y) (h' : SameNum y z) : SameNum x z := by
  rcases h with rfl | ⟨h1, s, rfl⟩
  · exact h'
  · rcases h' with rfl | ⟨_, h2⟩
    exacts [.inr ⟨h1, s, rfl⟩, .inr ⟨h1, h2⟩]

theorem zeros {x y : Fl f} (hx : ∃ s, x = .fin s 0) (hy : ∃ s, y = .fin s 0) : SameNum x y := .inr ⟨hx, hy⟩

theorem of_eq {x y : Fl f} (h : x = y) : SameNum x y := .inl h

theorem isZero {x y : Fl f} (h : SameNum x y) : isZero x = isZero y := by
  rcases h with rfl | ⟨h1, h2⟩
  · rfl
  · rw [isZero_iff.2 h1, isZero_iff.2 h2]

end SameNum

theorem pack_zero (s : Bool) : (pack s 0 : Fl f) = .fin s 0 := by simp [pack]

theorem roundRat_zero (p d : Nat) : roundRat p 0 d = 0 := by
  unfold roundRat
  simp

theorem zero_def : (0 : Fl f) = .fin false 0 := rfl

theorem zero_add_zero {x y : Fl f} (hx : ∃ s, x = .fin s 0) (hy : ∃ s, y = .fin s 0) : ∃ s, x + y = .fin s 0 := by
  obtain ⟨s, rfl⟩ := hx
  obtain ⟨t, rfl⟩ := hy
  rw [add_def]
  cases s <;> cases t <;> simp [add, roundRat_zero, pack_zero]

/-- A zero changes nothing. -/
theorem zero_add_same (hp : 1 ≤ f.p) {z x : Fl f} (hz : ∃ s, z = .fin s 0) (hx : x.Valid) : SameNum (z + x) x := by
  obtain ⟨s, rfl⟩ := hz
  rw [add_def]
  cases x with
  | nan => exact .inl rfl
  | inf t => exact .inl rfl
  | fin t b =>
    rcases Nat.eq_zero_or_pos b with rfl | hb
    · exact .zeros (by rw [← add_def]; exact zero_add_zero ⟨s, rfl⟩ ⟨t, rfl⟩) ⟨t, rfl⟩
    · left
      simp only [add]
      have hr : roundRat f.p b 1 = b := roundRat_fits hp hx.1
      have hk : (pack t b : Fl f) = .fin t b := if_pos hx.2
      split
      · rename_i h; rw [Nat.zero_add, hr, h, hk]
      · rw [if_neg (by omega), if_neg (by omega), Nat.sub_zero, hr, hk]

theorem add_zero_same (hp : 1 ≤ f.p) {z x : Fl f} (hz : ∃ s, z = .fin s 0) (hx : x.Valid) : SameNum (x + z) x := by
  rw [add_comm']; exact zero_add_same hp hz hx

/-- The sign of a zero operand does not matter for a sum. -/
theorem add_same_left {x x' : Fl f} (h : SameNum x x') (y : Fl f) : SameNum (x + y) (x' + y) := by
  rcases h with rfl | ⟨⟨s, rfl⟩, t, rfl⟩
  · exact .refl _
  · rw [add_def, add_def]
    cases y with
    | nan => exact .inl rfl
    | inf u => exact .inl rfl
    | fin u b =>
      rcases Nat.eq_zero_or_pos b with rfl | hb
      · rw [← add_def, ← add_def]
        exact .zeros (zero_add_zero ⟨s, rfl⟩ ⟨u, rfl⟩) (zero_add_zero ⟨t, rfl⟩ ⟨u, rfl⟩)
      · left
        have hv : ∀ v : Bool, add (.fin v 0) (.fin u b : Fl f) = pack u (roundRat f.p b 1) := by
          intro v
          simp only [add]
          split
          · rename_i h; rw [Nat.zero_add, h]
          · rw [if_neg (by omega), if_neg (by omega), Nat.sub_zero]
        rw [hv, hv]

theorem SameNum.add {x x' y y' : Fl f} (h : SameNum x x') (h' : SameNum y y') : SameNum (x + y) (x' + y') :=
  (add_same_left h y).trans (by rw [add_comm' x', add_comm' x']; exact add_same_left h' x')

theorem SameNum.neg {x x' : Fl f} (h : SameNum x x') : SameNum (-x) (-x') := by
  rcases h with rfl | ⟨⟨s, rfl⟩, t, rfl⟩
  · exact .refl _
  · exact .zeros ⟨!s, rfl⟩ ⟨!t, rfl⟩

theorem SameNum.sub {x x' y y' : Fl f} (h : SameNum x x') (h' : SameNum y y') : SameNum (x - y) (x' - y') :=
  h.add h'.neg

/-- A finite number times zero is zero. -/
theorem mul_zero_num {x z : Fl f} (hx : x.isFinite = true) (hz : ∃ s, z = .fin s 0) : ∃ s, x * z = .fin s 0 := by
  obtain ⟨s, a, rfl⟩ := isFinite_iff.1 hx
  obtain ⟨t, rfl⟩ := hz
  exact ⟨_, by rw [mul_def]; simp only [mul]; rw [Nat.mul_zero, roundRat_zero, pack_zero]⟩

theorem zero_mul_num {x z : Fl f} (hx : x.isFinite = true) (hz : ∃ s, z = .fin s 0) : ∃ s, z * x = .fin s 0 := by
  rw [mul_comm']; exact mul_zero_num hx hz

theorem mul_same_left {x x' : Fl f} (h : SameNum x x') (y : Fl f) : SameNum (x * y) (x' * y) := by
  rcases h with rfl | ⟨⟨s, rfl⟩, t, rfl⟩
  · exact .refl _
  · cases y with
    | nan => exact .inl rfl
    | inf u => exact .inl rfl
    | fin u b => exact .zeros (zero_mul_num rfl ⟨s, rfl⟩) (zero_mul_num rfl ⟨t, rfl⟩)

theorem SameNum.mul {x x' y y' : Fl f} (h : SameNum x x') (h' : SameNum y y') : SameNum (x * y) (x' * y') :=
  (mul_same_left h y).trans (by rw [mul_comm' x', mul_comm' x']; exact mul_same_left h' x')

theorem neg_neg' (x : Fl f) : - -x = x := by
  rw [neg_def, neg_def]; cases x <;> simp [Fl.neg]

/-- Negation commutes with rounding. -/
theorem neg_add_same (x y : Fl f) : SameNum (-(x + y)) (-x + -y) := by
  rw [add_def, add_def, neg_def, neg_def, neg_def]
  have hpk : ∀ s m, Fl.neg (pack s m : Fl f) = pack (!s) m := by
    intro s m; unfold pack; split <;> rfl
  have hn : ∀ s a, Fl.neg (.fin s a : Fl f) = .fin (!s) a := fun _ _ => rfl
  cases x with
  | nan => exact .inl rfl
  | inf s =>
    cases y with
    | nan => exact .inl rfl
    | inf t => left; cases s <;> cases t <;> rfl
    | fin t b => exact .inl rfl
  | fin s a =>
    cases y with
    | nan => exact .inl rfl
    | inf t => exact .inl rfl
    | fin t b =>
      by_cases hst : s = t
      · left; subst hst; simp only [Fl.add, hn, hpk, if_true]
      · have hst' : (!s) ≠ (!t) := by cases s <;> cases t <;> simp_all
        by_cases hab : a = b
        · subst hab
          right
          simp only [Fl.add, hn, if_neg hst, if_neg hst', if_true]
          exact ⟨⟨_, rfl⟩, ⟨_, rfl⟩⟩
        · left
          simp only [Fl.add, hn, if_neg hst, if_neg hst', if_neg hab]
          split <;> rw [hpk]

theorem mul_neg' (x y : Fl f) : x * -y = -(x * y) := by rw [mul_comm', ← neg_mul', mul_comm']

/-! ## Sums from left to right -/

theorem descSum_congr {g g' : Nat → Fl f} : ∀ {n : Nat} {a a' : Fl f}, (∀ d < n, SameNum (g d) (g' d)) → SameNum a a' →
    SameNum (descSum g n a) (descSum g' n a')
  | 0, _, _, _, h => h
  | n + 1, a, a', hg, h => by
    show SameNum (descSum g n (a + g n)) (descSum g' n (a' + g' n))
    exact descSum_congr (fun d hd => hg d (by omega)) (h.add (hg n (by omega)))

/-- Leading zeros of the sum change nothing. -/
theorem descSum_lead (hp : 1 ≤ f.p) {g : Nat → Fl f} {n : Nat} : ∀ {m : Nat}, (∀ d, n ≤ d → d < n + m → ∃ s, g d = .fin s 0) →
    ∀ {a : Fl f}, a.Valid → SameNum (descSum g (n + m) a) (descSum g n a)
  | 0, _, _, _ => .refl _
  | m + 1, h, a, ha => by
    show SameNum (descSum g (n + m) (a + g (n + m))) _
    refine (descSum_lead hp (fun d h1 h2 => h d h1 (by omega)) (C65_closed hp a _).1).trans ?_
    exact descSum_congr (fun d _ => .refl _) (add_zero_same hp (h _ (by omega) (by omega)) ha)

theorem descSum_zeros (hp : 1 ≤ f.p) {g : Nat → Fl f} {n : Nat} (h : ∀ d < n, ∃ s, g d = .fin s 0) {a : Fl f} (ha : a.Valid) :
    SameNum (descSum g n a) a := by
  have := descSum_lead hp (n := 0) (m := n) (g := g) (fun d _ hd => h d (by omega)) ha
  rwa [Nat.zero_add] at this

theorem descSum_valid (hp : 1 ≤ f.p) {g : Nat → Fl f} : ∀ {n : Nat} {a : Fl f}, a.Valid → (descSum g n a).Valid
  | 0, _, h => h
  | n + 1, a, _ => by
    show (descSum g n (a + g n)).Valid
    exact descSum_valid hp (C65_closed hp a _).1

theorem descSum_neg {g : Nat → Fl f} : ∀ {n : Nat} {a : Fl f}, SameNum (descSum (fun d => -g d) n (-a)) (-descSum g n a)
  | 0, _ => .refl _
  | n + 1, a => by
    refine (descSum_congr (fun d _ => .refl _) (neg_add_same a (g n)).symm).trans ?_
    exact descSum_neg

theorem valid_zero : (0 : Fl f).Valid := ⟨⟨0, 0, by positivity, by simp⟩, by positivity⟩

/-! ## Coefficients of stored lists -/

theorem getD_valid {l : List (Fl f)} (h : ∀ c ∈ l, c.Valid) (k : Nat) : (l.getD k 0).Valid := by
  rw [List.getD_eq_getElem?_getD]
  cases hk : l[k]? with
  | none => exact valid_zero
  | some c => exact h c (List.mem_of_getElem? hk)

theorem getD_num {l : List (Fl f)} (h : ∀ c ∈ l, c.isFinite = true ∧ c.Valid) (k : Nat) : (l.getD k 0).isFinite = true ∧ (l.getD k 0).Valid := by
  rw [List.getD_eq_getElem?_getD]
  cases hk : l[k]? with
  | none => exact ⟨rfl, valid_zero⟩
  | some c => exact h c (List.mem_of_getElem? hk)

theorem AllValid.coeff {p : Poly (Fl f)} (h : AllValid p) (k : Nat) : (coeffOf p k).Valid :=
  getD_valid (fun c hc => h c (List.mem_reverse.1 hc)) k

theorem AllNumbers.coeff {p : Poly (Fl f)} (h : AllNumbers p) (k : Nat) : (coeffOf p k).isFinite = true ∧ (coeffOf p k).Valid :=
  getD_num (fun c hc => h c (List.mem_reverse.1 hc)) k

theorem AllNumbers.valid {p : Poly (Fl f)} (h : AllNumbers p) : AllValid p := fun c hc => (h c hc).2

/-- Coefficient of `x^k` in a list. -/
theorem coeffOf_append (a b : List (Fl f)) (k : Nat) :
    coeffOf ⟨a ++ b⟩ k = if k < b.length then coeffOf ⟨b⟩ k else coeffOf ⟨a⟩ (k - b.length) := by
  unfold coeffOf
  simp only [List.reverse_append, List.getD_eq_getElem?_getD, List.getElem?_append, List.length_reverse]
  split <;> rfl

theorem coeffOf_ge (l : List (Fl f)) {k : Nat} (h : l.length ≤ k) : coeffOf ⟨l⟩ k = 0 := by
  unfold coeffOf
  rw [List.getD_eq_default _ _ (by simpa using h)]

theorem coeffOf_dropWhile (l : List (Fl f)) (k : Nat) : SameNum (coeffOf ⟨l.dropWhile isZero⟩ k) (coeffOf ⟨l⟩ k) := by
  induction l with
  | nil => exact .refl _
  | cons c cs ih =>
    rw [List.dropWhile_cons]
    split
    · rename_i hz
      refine ih.trans ?_
      rw [show c :: cs = [c] ++ cs from rfl, coeffOf_append]
      split
      · exact .refl _
      · rename_i hk
        rw [coeffOf_ge cs (by omega)]
        refine .zeros ⟨_, zero_def⟩ ?_
        rcases Nat.eq_zero_or_pos (k - cs.length) with h0 | h0
        · rw [h0]; exact isZero_iff.1 hz
        · rw [coeffOf_ge [c] (by simp only [List.length_singleton]; omega)]; exact ⟨_, zero_def⟩
    · exact .refl _

theorem coeffOf_new (l : List (Fl f)) (k : Nat) : SameNum (coeffOf (Poly.new l) k) (coeffOf ⟨l⟩ k) := by
  have : Poly.new l = ⟨l.dropWhile isZero⟩ := by
    rw [← new_terms]
  rw [this]; exact coeffOf_dropWhile l k

theorem coeffOf_map {h : Fl f → Fl f} (l : List (Fl f)) {k : Nat} (hk : k < l.length) :
    coeffOf ⟨l.map h⟩ k = h (coeffOf ⟨l⟩ k) := by
  unfold coeffOf
  simp only [← List.map_reverse, List.getD_eq_getElem?_getD, List.getElem?_map]
  rw [List.getElem?_eq_getElem (by simpa using hk)]
  rfl

theorem zipMut_eq_zipWith {F : Fl f → Fl f → Fl f} : ∀ (a b : List (Fl f)), a.length = b.length → zipMut F a b = List.zipWith F a b
  | [], b, _ => by simp
  | x :: xs, [], h => by simp at h
  | x :: xs, y :: ys, h => by
    rw [zipMut, List.zipWith, zipMut_eq_zipWith xs ys (by simpa using h)]

/-- Coefficients of the sum of a long and a short list. -/
theorem coeffOf_zip {F : Fl f → Fl f → Fl f} (a b : List (Fl f)) (h : b.length ≤ a.length) (k : Nat) :
    coeffOf ⟨a.take (a.length - b.length) ++ zipMut F (a.drop (a.length - b.length)) b⟩ k =
      if k < b.length then F (coeffOf ⟨a⟩ k) (coeffOf ⟨b⟩ k) else coeffOf ⟨a⟩ k := by
  have hd : (a.drop (a.length - b.length)).length = b.length := by rw [List.length_drop]; omega
  rw [zipMut_eq_zipWith _ _ hd, coeffOf_append]
  have hl : (List.zipWith F (a.drop (a.length - b.length)) b).length = b.length := by simp; omega
  have ha := coeffOf_append (a.take (a.length - b.length)) (a.drop (a.length - b.length)) k
  rw [List.take_append_drop, hd] at ha
  rw [hl]
  split
  · rename_i hk
    rw [ha, if_pos hk]
    unfold coeffOf
    simp only [List.reverse_zipWith hd, List.getD_eq_getElem?_getD, List.getElem?_zipWith]
    rw [List.getElem?_eq_getElem (l := b.reverse) (by simpa using hk),
      List.getElem?_eq_getElem (l := (a.drop (a.length - b.length)).reverse) (by rw [List.length_reverse, hd]; exact hk)]
    rfl
  · rename_i hk
    rw [ha, if_neg hk]

/-! ## The coefficients of results -/

/-- C115: the coefficients of sums (`+` and `+=`) are the rounded sums of the coefficients. -/
theorem C115_add_coeff (hp : 1 ≤ f.p) (p q : Poly (Fl f)) (hpv : AllValid p) (hqv : AllValid q) :
    (∃ r, p.add q = .ok r ∧ ∀ k, SameNum (coeffOf r k) (coeffOf p k + coeffOf q k)) ∧
    (∃ r, p.addAssign q = .ok r ∧ ∀ k, SameNum (coeffOf r k) (coeffOf p k + coeffOf q k)) := by
  have key : ∀ a b : List (Fl f), b.length ≤ a.length → (∀ c ∈ a, c.Valid) → ∀ k,
      SameNum (coeffOf ⟨a.take (a.length - b.length) ++ zipMut (fun x y => x + y) (a.drop (a.length - b.length)) b⟩ k)
        (coeffOf ⟨a⟩ k + coeffOf ⟨b⟩ k) := by
    intro a b hab ha k
    rw [coeffOf_zip a b hab]
    split
    · exact .refl _
    · rename_i hk
      rw [coeffOf_ge b (by omega)]
      exact (add_zero_same hp ⟨_, zero_def⟩ (AllValid.coeff (p := ⟨a⟩) ha k)).symm
  constructor
  · unfold Poly.add
    by_cases h : q.terms.length > p.terms.length
    · simp only [if_pos h]
      rw [sliceFrom_ok (Nat.sub_le _ _), Res.ok_bind]
      refine ⟨_, rfl, fun k => (coeffOf_new _ k).trans ((key _ _ (by omega) hqv k).trans (.of_eq (add_comm' _ _)))⟩
    · simp only [if_neg h]
      rw [sliceFrom_ok (Nat.sub_le _ _), Res.ok_bind]
      exact ⟨_, rfl, fun k => (coeffOf_new _ k).trans (key _ _ (by omega) hpv k)⟩
  · unfold Poly.addAssign
    by_cases h : q.terms.length > p.terms.length
    · rw [if_pos h]
      simp only []
      rw [sliceFrom_ok (Nat.sub_le _ _), Res.ok_bind]
      exact ⟨_, rfl, fun k => (key _ _ (by omega) hqv k).trans (.of_eq (add_comm' _ _))⟩
    · rw [if_neg h]
      simp only []
      rw [sliceFrom_ok (Nat.sub_le _ _), Res.ok_bind]
      exact ⟨_, rfl, fun k => key _ _ (by omega) hpv k⟩

/-- C115: the coefficients of differences are the rounded differences of the coefficients. -/
theorem C115_sub_coeff (hp : 1 ≤ f.p) (p q : Poly (Fl f)) (hpv : AllValid p) (hqv : AllValid q) :
    (∃ r, p.sub q = .ok r ∧ ∀ k, SameNum (coeffOf r k) (coeffOf p k - coeffOf q k)) ∧
    (∃ r, p.subRef q = .ok r ∧ ∀ k, SameNum (coeffOf r k) (coeffOf p k - coeffOf q k)) := by
  have hz : ∃ s, -(0 : Fl f) = .fin s 0 := ⟨true, rfl⟩
  have key1 : ∀ k, q.terms.length ≤ p.terms.length →
      SameNum (coeffOf ⟨p.terms.take (p.terms.length - q.terms.length) ++
        zipMut (fun x y => x - y) (p.terms.drop (p.terms.length - q.terms.length)) q.terms⟩ k) (coeffOf p k - coeffOf q k) := by
    intro k h
    rw [coeffOf_zip p.terms q.terms h]
    split
    · exact .refl _
    · rename_i hk
      rw [sub_def, show coeffOf q k = 0 from coeffOf_ge q.terms (by omega)]
      exact (add_zero_same hp hz (hpv.coeff k)).symm
  have key2 : ∀ k, q.terms.length > p.terms.length → ∀ l : List (Fl f),
      l = List.zipWith (fun x y => x - y) p.terms (q.terms.drop (q.terms.length - p.terms.length)) →
      SameNum (coeffOf ⟨(q.terms.take (q.terms.length - p.terms.length)).map (fun t => -t) ++ l⟩ k)
        (coeffOf p k - coeffOf q k) := by
    intro k h l hl
    have hd : (q.terms.drop (q.terms.length - p.terms.length)).length = p.terms.length := by rw [List.length_drop]; omega
    have hll : l.length = p.terms.length := by rw [hl]; simp; omega
    have hq := coeffOf_append (q.terms.take (q.terms.length - p.terms.length)) (q.terms.drop (q.terms.length - p.terms.length)) k
    rw [List.take_append_drop, hd] at hq
    rw [coeffOf_append, hll]
    split
    · rename_i hk
      left
      rw [hl, show coeffOf q k = _ from hq, if_pos hk]
      unfold coeffOf
      simp only [List.reverse_zipWith hd.symm, List.getD_eq_getElem?_getD, List.getElem?_zipWith]
      rw [List.getElem?_eq_getElem (l := p.terms.reverse) (by simpa using hk),
        List.getElem?_eq_getElem (l := (q.terms.drop (q.terms.length - p.terms.length)).reverse)
          (by rw [List.length_reverse, hd]; exact hk)]
      rfl
    · rename_i hk
      have hq' : coeffOf q k = _ := hq
      rw [if_neg hk] at hq'
      rw [show coeffOf p k = 0 from coeffOf_ge p.terms (by omega), sub_def]
      refine .symm ((zero_add_same hp ⟨_, zero_def⟩ (valid_neg (hqv.coeff k))).trans ?_)
      rw [hq']
      by_cases hk' : k - p.terms.length < (q.terms.take (q.terms.length - p.terms.length)).length
      · rw [coeffOf_map _ hk']; exact .refl _
      · rw [coeffOf_ge _ (by omega), coeffOf_ge _ (by rw [List.length_map]; omega)]
        exact .zeros hz ⟨_, zero_def⟩
  constructor
  · unfold Poly.sub
    by_cases h : q.terms.length > p.terms.length
    · rw [if_pos h]
      refine ⟨_, rfl, fun k => key2 k h _ ?_⟩
      rw [zipMut_eq_zipWith _ _ (by rw [List.length_drop]; omega), List.zipWith_comm]
    · rw [if_neg h]
      simp only []
      rw [sliceFrom_ok (Nat.sub_le _ _), Res.ok_bind]
      exact ⟨_, rfl, fun k => key1 k (by omega)⟩
  · unfold Poly.subRef
    by_cases h : q.terms.length > p.terms.length
    · rw [if_pos h]
      refine ⟨_, rfl, fun k => key2 k h _ ?_⟩
      rw [zipMut_eq_zipWith _ _ (by rw [List.length_drop]; omega)]
    · rw [if_neg h]
      simp only []
      rw [sliceFrom_ok (Nat.sub_le _ _), Res.ok_bind]
      exact ⟨_, rfl, fun k => key1 k (by omega)⟩

/-- C115: negation changes the sign of every coefficient. -/
theorem C115_neg_coeff (p : Poly (Fl f)) (k : Nat) : SameNum (coeffOf p.neg k) (-coeffOf p k) := by
  by_cases hk : k < p.terms.length
  · exact .of_eq (coeffOf_map (h := fun x => -x) p.terms hk)
  · rw [show coeffOf p.neg k = 0 from coeffOf_ge _ (by rw [List.length_map]; omega),
      show coeffOf p k = 0 from coeffOf_ge _ (by omega)]
    exact .zeros ⟨_, zero_def⟩ ⟨true, rfl⟩

/-- C115: multiplying by a number multiplies every stored coefficient; so every coefficient, if the number is finite. -/
theorem C115_scale_coeff (p : Poly (Fl f)) (a : Fl f) (k : Nat) (h : a.isFinite = true ∨ k < p.terms.length) :
    SameNum (coeffOf (p.mulScalar a) k) (coeffOf p k * a) ∧ SameNum (coeffOf (p.mulAssignScalar a) k) (coeffOf p k * a) := by
  have key : SameNum (coeffOf ⟨p.terms.map fun x => x * a⟩ k) (coeffOf p k * a) := by
    by_cases hk : k < p.terms.length
    · exact .of_eq (coeffOf_map (h := fun x => x * a) p.terms hk)
    · rw [coeffOf_ge _ (by rw [List.length_map]; omega), show coeffOf p k = 0 from coeffOf_ge _ (by omega)]
      exact .zeros ⟨_, zero_def⟩ (zero_mul_num (h.resolve_right hk) ⟨_, zero_def⟩)
  exact ⟨(coeffOf_new _ k).trans key, key⟩

theorem zipMut_getElem? {F : Fl f → Fl f → Fl f} : ∀ (a b : List (Fl f)) (j : Nat),
    (zipMut F a b)[j]? = (a[j]?).map fun t => match b[j]? with
      | some y => F t y
      | none => t
  | [], b, j => by simp
  | x :: xs, [], j => by simp
  | x :: xs, y :: ys, 0 => by simp [zipMut]
  | x :: xs, y :: ys, j + 1 => by
    rw [zipMut]
    simp only [List.getElem?_cons_succ]
    exact zipMut_getElem? xs ys j

/-- The coefficients stored by the loop of the product. -/
theorem sliceMulLoop_coeff (hp : 1 ≤ f.p) {lhs : List (Fl f)} (hl : ∀ c ∈ lhs, c.isFinite = true ∧ c.Valid) :
    ∀ (rest : List (Fl f)) (i : Nat) (terms : List (Fl f)), (∀ c ∈ rest, c.isFinite = true ∧ c.Valid) → (∀ c ∈ terms, c.Valid) →
      i + rest.length ≤ terms.length + 1 → ∃ T, sliceMulLoop lhs rest i terms = .ok T ∧ T.length = terms.length ∧
      ∀ j, j < terms.length → SameNum (T.getD j 0) (descSum (fun d => rest.reverse.getD d 0 *
        (if i + rest.length - 1 - d ≤ j then lhs.getD (j - (i + rest.length - 1 - d)) 0 else 0)) rest.length (terms.getD j 0))
  | [], i, terms, _, _, _ => ⟨terms, rfl, rfl, fun _ _ => .refl _⟩
  | r :: rs, i, terms, hr, ht, hlen => by
    have hrf := hr r (by simp)
    simp only [List.length_cons] at hlen
    obtain ⟨T1, h1, hl1, hv1, hc1⟩ : ∃ T1, sliceMulStep lhs terms i r = .ok T1 ∧ T1.length = terms.length ∧ (∀ c ∈ T1, c.Valid) ∧
        ∀ j, j < terms.length → SameNum (T1.getD j 0) (terms.getD j 0 + r * (if i ≤ j then lhs.getD (j - i) 0 else 0)) := by
      unfold sliceMulStep
      by_cases hz : isZero r = true
      · rw [if_pos hz]
        refine ⟨terms, rfl, rfl, ht, fun j hj => ?_⟩
        refine (add_zero_same hp ?_ (getD_valid ht j)).symm
        refine zero_mul_num ?_ (isZero_iff.1 hz)
        split
        · exact (getD_num hl _).1
        · rfl
      · rw [if_neg hz, sliceFrom_ok (by omega), Res.ok_bind]
        refine ⟨_, rfl, ?_, ?_, fun j hj => ?_⟩
        · have : ∀ (a b : List (Fl f)), (zipMut (fun term lterm => term + r * lterm) a b).length = a.length := by
            intro a
            induction a with
            | nil => simp
            | cons x xs ih => intro b; cases b <;> simp [zipMut, ih]
          rw [List.length_append, this, List.length_take, List.length_drop]; omega
        · intro c hc
          rcases List.mem_append.1 hc with hc | hc
          · exact ht c (List.mem_of_mem_take hc)
          · obtain ⟨j, hj⟩ := List.mem_iff_getElem?.1 hc
            rw [zipMut_getElem?] at hj
            cases ha : (terms.drop i)[j]? with
            | none => rw [ha] at hj; simp at hj
            | some t =>
              rw [ha] at hj
              simp only [Option.map_some, Option.some.injEq] at hj
              split at hj
              · rw [← hj]; exact (C65_closed hp _ _).1
              · rw [← hj]; exact ht t (List.mem_of_mem_drop (List.mem_of_getElem? ha))
        · simp only [List.getD_eq_getElem?_getD]
          have htake : (terms.take i).length = i := by rw [List.length_take]; omega
          by_cases hij : i ≤ j
          · rw [if_pos hij, List.getElem?_append_right (by omega), htake, zipMut_getElem?, List.getElem?_drop,
              show i + (j - i) = j by omega, List.getElem?_eq_getElem hj]
            simp only [Option.map_some, Option.getD_some]
            split
            · rename_i y hy; rw [hy]; exact .refl _
            · rename_i hy
              rw [hy]
              exact (add_zero_same hp (mul_zero_num hrf.1 ⟨_, zero_def⟩) (ht _ (List.getElem_mem hj))).symm
          · rw [if_neg hij, List.getElem?_append_left (by omega), List.getElem?_take, if_pos (by omega),
              List.getElem?_eq_getElem hj]
            exact (add_zero_same hp (mul_zero_num hrf.1 ⟨_, zero_def⟩) (ht _ (List.getElem_mem hj))).symm
    obtain ⟨T, h2, hl2, hc2⟩ := sliceMulLoop_coeff hp hl rs (i + 1) T1 (fun c hc => hr c (by simp [hc])) hv1 (by omega)
    refine ⟨T, by rw [sliceMulLoop, h1]; exact h2, hl2.trans hl1, fun j hj => (hc2 j (by omega)).trans ?_⟩
    rw [List.length_cons]
    show SameNum _ (descSum _ rs.length (_ + _))
    have hlast : (r :: rs).reverse.getD rs.length 0 = r := by
      simp [List.getD_eq_getElem?_getD]
    refine descSum_congr (fun d hd => ?_) ((hc1 j hj).trans ?_)
    · have : (r :: rs).reverse.getD d 0 = rs.reverse.getD d 0 := by
        simp only [List.getD_eq_getElem?_getD, List.reverse_cons]
        rw [List.getElem?_append_left (by simpa using hd)]
      rw [this, show i + 1 + rs.length - 1 - d = i + (rs.length + 1) - 1 - d by omega]
      exact .refl _
    · beta_reduce
      rw [hlast, show i + (rs.length + 1) - 1 - rs.length = i by omega]
      exact .refl _

theorem allNumbers_dropWhile {p : Poly (Fl f)} (h : AllNumbers p) : AllNumbers ⟨p.terms.dropWhile isZero⟩ :=
  fun c hc => h c ((List.dropWhile_sublist _).subset hc)

/-- `convSum` depends on the numbers only. -/
theorem convSum_congr {p p' q q' : Poly (Fl f)} (hp : SamePoly p p') (hq : SamePoly q q') (k : Nat) :
    SameNum (convSum p q k) (convSum p' q' k) :=
  descSum_congr (fun d _ => (hq d).mul (hp _)) (.refl _)

/-- C115: the coefficient of `x^k` in a product of polynomials with finite coefficients is the sum of the products of coefficients, rounded
after each step, in the order of falling degree of the right factor. -/
theorem C115_mul_coeff (hp : 1 ≤ f.p) (p q r : Poly (Fl f)) (hpn : AllNumbers p) (hqn : AllNumbers q)
    (h : p.mul q = .ok r ∨ p.mulRef q = .ok r) (k : Nat) : SameNum (coeffOf r k) (convSum p q k) := by
  obtain ⟨T, hT, hr⟩ : ∃ T, sliceMul p.terms q.terms = .ok T ∧ SameNum (coeffOf r k) (coeffOf ⟨T⟩ k) := by
    rcases h with h | h
    · unfold Poly.mul at h
      obtain ⟨T, h1, h2⟩ := Res.bind_eq_ok.1 h
      cases h2
      exact ⟨T, h1, .refl _⟩
    · unfold Poly.mulRef at h
      obtain ⟨T, h1, h2⟩ := Res.bind_eq_ok.1 h
      cases h2
      exact ⟨T, h1, coeffOf_new T k⟩
  refine hr.trans ?_
  have e1 : SamePoly ⟨p.terms.dropWhile isZero⟩ p := coeffOf_dropWhile p.terms
  have e2 : SamePoly ⟨q.terms.dropWhile isZero⟩ q := coeffOf_dropWhile q.terms
  refine SameNum.trans ?_ (convSum_congr e1 e2 k)
  have n1 := allNumbers_dropWhile hpn
  have n2 := allNumbers_dropWhile hqn
  unfold sliceMul at hT
  simp only [sliceFrom, firstNonzeroIndex_le, if_true, Res.ok_bind, drop_firstNonzeroIndex] at hT
  generalize p.terms.dropWhile isZero = l at *
  generalize q.terms.dropWhile isZero = m at *
  obtain ⟨len, hlen, hT⟩ := Res.bind_eq_ok.1 hT
  have hlen' : 1 ≤ m.length + l.length ∧ len = m.length + l.length - 1 := by
    unfold usub at hlen
    split at hlen
    · rename_i h; exact ⟨h, (Res.ok.inj hlen).symm⟩
    · cases hlen
  obtain ⟨T', hT', hl', hc'⟩ := sliceMulLoop_coeff hp n1 m 0 (List.replicate len 0) n2
    (fun c hc => by rw [(List.mem_replicate.1 hc).2]; exact valid_zero) (by rw [List.length_replicate]; omega)
  rw [hT] at hT'
  cases hT'
  rw [List.length_replicate] at hl' hc'
  -- the sum over all degrees of the right factor
  have hzero : ∀ d, (m.length ≤ d ∨ k < d ∨ l.length ≤ k - d) → ∃ s, coeffOf ⟨m⟩ d *
      (if d ≤ k then coeffOf ⟨l⟩ (k - d) else 0) = .fin s 0 := by
    intro d hd
    have hfin : (if d ≤ k then coeffOf ⟨l⟩ (k - d) else (0 : Fl f)).isFinite = true := by
      split
      · exact (n1.coeff _).1
      · rfl
    rcases hd with hd | hd | hd
    · rw [coeffOf_ge m hd]; exact zero_mul_num hfin ⟨_, zero_def⟩
    · rw [if_neg (by omega)]; exact mul_zero_num (n2.coeff d).1 ⟨_, zero_def⟩
    · refine mul_zero_num (n2.coeff d).1 ?_
      rw [coeffOf_ge l hd]; split <;> exact ⟨_, zero_def⟩
  have hconv : SameNum (convSum ⟨l⟩ ⟨m⟩ k)
      (descSum (fun d => coeffOf ⟨m⟩ d * (if d ≤ k then coeffOf ⟨l⟩ (k - d) else 0)) m.length 0) := by
    unfold convSum
    refine (descSum_congr (g' := fun d => coeffOf ⟨m⟩ d * (if d ≤ k then coeffOf ⟨l⟩ (k - d) else 0)) (fun d hd => by
      rw [if_pos (by omega)]; exact .refl _) (.refl _)).trans ?_
    rcases Nat.le_total (k + 1) m.length with hk | hk
    · have := descSum_lead hp (n := k + 1) (m := m.length - (k + 1))
        (g := fun d => coeffOf ⟨m⟩ d * (if d ≤ k then coeffOf ⟨l⟩ (k - d) else 0)) (fun d h1 _ => hzero d (.inr (.inl (by omega))))
        valid_zero
      rw [show k + 1 + (m.length - (k + 1)) = m.length by omega] at this
      exact this.symm
    · have := descSum_lead hp (n := m.length) (m := k + 1 - m.length)
        (g := fun d => coeffOf ⟨m⟩ d * (if d ≤ k then coeffOf ⟨l⟩ (k - d) else 0)) (fun d h1 _ => hzero d (.inl h1))
        valid_zero
      rwa [show m.length + (k + 1 - m.length) = k + 1 by omega] at this
  refine SameNum.trans ?_ hconv.symm
  by_cases hk : k < len
  · have hj := hc' (len - 1 - k) (by omega)
    have hTk : coeffOf ⟨T⟩ k = T.getD (len - 1 - k) 0 := by
      unfold coeffOf
      simp only [List.getD_eq_getElem?_getD]
      rw [List.getElem?_reverse (by omega), hl']
    rw [hTk]
    refine hj.trans (descSum_congr (fun d hd => ?_) (.of_eq ?_))
    · refine SameNum.mul (.refl _) ?_
      by_cases hdk : d ≤ k
      · rw [if_pos hdk]
        by_cases hpos : 0 + m.length - 1 - d ≤ len - 1 - k
        · rw [if_pos hpos]
          left
          unfold coeffOf
          simp only [List.getD_eq_getElem?_getD]
          rw [List.getElem?_reverse (by omega)]
          congr 2
          omega
        · rw [if_neg hpos, coeffOf_ge l (by omega)]
          exact .refl _
      · rw [if_neg hdk, if_pos (by omega)]
        rw [List.getD_eq_default _ _ (by show l.length ≤ _; omega)]
        exact .refl _
    · rw [List.getD_eq_getElem?_getD, List.getElem?_replicate]
      split <;> rfl
  · rw [coeffOf_ge T (by omega)]
    exact (descSum_zeros hp (fun d hd => hzero d (by omega)) valid_zero).symm

/-! ## Observing polynomials with the same numbers -/

/-- The terms up to degree `n - 1` of a sequence of coefficients. -/
def upTo (g : Nat → Fl f) : Nat → List (Fl f × Nat)
  | 0 => []
  | n + 1 => if isZero (g n) then upTo g n else (g n, n) :: upTo g n

theorem upTo_congr {g g' : Nat → Fl f} : ∀ {n : Nat}, (∀ d < n, SameNum (g d) (g' d)) → upTo g n = upTo g' n
  | 0, _ => rfl
  | n + 1, h => by
    have hn := h n (by omega)
    rw [upTo, upTo, upTo_congr fun d hd => h d (by omega), hn.isZero]
    split
    · rfl
    · rename_i hz
      rcases hn with hn | ⟨_, hn⟩
      · rw [hn]
      · exact absurd (isZero_iff.2 hn) hz

theorem upTo_lead {g : Nat → Fl f} {n : Nat} : ∀ {m : Nat}, (∀ d, n ≤ d → isZero (g d) = true) → upTo g (n + m) = upTo g n
  | 0, _ => rfl
  | m + 1, h => by
    show upTo g (n + m + 1) = _
    rw [upTo, if_pos (h _ (by omega)), upTo_lead h]

theorem descTerms_upTo : ∀ l : List (Fl f), descTerms l = upTo (coeffOf ⟨l⟩) l.length
  | [] => rfl
  | c :: cs => by
    have hc : coeffOf ⟨c :: cs⟩ cs.length = c := by
      rw [show c :: cs = [c] ++ cs from rfl, coeffOf_append, if_neg (by omega), Nat.sub_self]; rfl
    have hcs : upTo (coeffOf ⟨c :: cs⟩) cs.length = upTo (coeffOf ⟨cs⟩) cs.length := upTo_congr fun d hd => by
      rw [show c :: cs = [c] ++ cs from rfl, coeffOf_append, if_pos hd]; exact .refl _
    rw [descTerms, List.length_cons, upTo, hc, hcs, ← descTerms_upTo cs]

theorem descTerms_upTo' (p : Poly (Fl f)) {n : Nat} (h : p.terms.length ≤ n) : descTerms p.terms = upTo (coeffOf p) n := by
  rw [descTerms_upTo]
  obtain ⟨m, rfl⟩ := Nat.exists_eq_add_of_le h
  exact (upTo_lead fun d hd => by rw [show coeffOf p d = 0 from coeffOf_ge _ hd]; rfl).symm

/-- One step of Horner's rule for each degree from `n` to 1. -/
def horner (g : Nat → Fl f) (x : Fl f) : Nat → Fl f → Fl f
  | 0, acc => acc
  | n + 1, acc => horner g x n ((acc + g (n + 1)) * x)

theorem horner_congr {g g' : Nat → Fl f} {x x' : Fl f} (hx : SameNum x x') : ∀ {n : Nat} {a a' : Fl f},
    (∀ d, d ≤ n → SameNum (g d) (g' d)) → SameNum a a' → SameNum (horner g x n a) (horner g' x' n a')
  | 0, _, _, _, h => h
  | n + 1, a, a', hg, h => by
    show SameNum (horner g x n ((a + g (n + 1)) * x)) (horner g' x' n ((a' + g' (n + 1)) * x'))
    exact horner_congr hx (fun d hd => hg d (by omega)) ((h.add (hg _ (by omega))).mul hx)

theorem horner_lead {g : Nat → Fl f} {x : Fl f} (hx : x.isFinite = true) {n : Nat} : ∀ {m : Nat},
    (∀ d, n < d → ∃ s, g d = .fin s 0) → ∀ {a : Fl f}, (∃ s, a = .fin s 0) → SameNum (horner g x (n + m) a) (horner g x n 0)
  | 0, _, a, ha => horner_congr (.refl _) (fun _ _ => .refl _) (.zeros ha ⟨_, zero_def⟩)
  | m + 1, h, a, ha => by
    show SameNum (horner g x (n + m) ((a + g (n + m + 1)) * x)) _
    exact horner_lead hx h (zero_mul_num hx (zero_add_zero ha (h _ (by omega))))

theorem horner_neg {g : Nat → Fl f} {x : Fl f} : ∀ {n : Nat} {a : Fl f},
    SameNum (horner (fun d => -g d) x n (-a)) (-horner g x n a)
  | 0, _ => .refl _
  | n + 1, a => by
    show SameNum (horner _ x n ((-a + -g (n + 1)) * x)) (-horner g x n ((a + g (n + 1)) * x))
    refine (horner_congr (.refl _) (fun d _ => .refl _) (mul_same_left (neg_add_same a (g (n + 1))).symm x)).trans ?_
    rw [← neg_mul']
    exact horner_neg

theorem foldl_horner (x : Fl f) : ∀ (l : List (Fl f)) (a : Fl f),
    l.foldl (fun sum val => (sum + val) * x) a = horner (fun d => coeffOf ⟨l⟩ (d - 1)) x l.length a
  | [], _ => rfl
  | c :: cs, a => by
    have hc : coeffOf ⟨c :: cs⟩ (cs.length + 1 - 1) = c := by
      rw [show c :: cs = [c] ++ cs from rfl, coeffOf_append, if_neg (by omega), Nat.add_sub_cancel, Nat.sub_self]; rfl
    rw [List.foldl_cons, foldl_horner x cs, List.length_cons]
    show _ = horner _ x cs.length ((a + coeffOf ⟨c :: cs⟩ (cs.length + 1 - 1)) * x)
    rw [hc]
    have : ∀ n, n ≤ cs.length → ∀ b, horner (fun d => coeffOf ⟨cs⟩ (d - 1)) x n b = horner (fun d => coeffOf ⟨c :: cs⟩ (d - 1)) x n b := by
      intro n
      induction n with
      | zero => intros; rfl
      | succ n ih =>
        intro hn b
        rw [horner, horner, ih (by omega)]
        congr 3
        show coeffOf ⟨cs⟩ n = coeffOf ⟨c :: cs⟩ n
        rw [show c :: cs = [c] ++ cs from rfl, coeffOf_append, if_pos (by omega)]
    exact this _ le_rfl _

/-- The value of `eval` in terms of the coefficients. -/
theorem eval_horner (p : Poly (Fl f)) {x : Fl f} (hx : isZero x = false) :
    SameNum (p.eval x) (horner (coeffOf p) x (p.terms.length - 1) 0 + coeffOf p 0) := by
  unfold Poly.eval
  rcases List.eq_nil_or_concat p.terms with h | ⟨l, c, h⟩
  · obtain ⟨t⟩ := p
    cases h
    exact .zeros ⟨_, zero_def⟩ (zero_add_zero ⟨_, zero_def⟩ ⟨_, zero_def⟩)
  · have hc : coeffOf p 0 = c := by unfold coeffOf; rw [h]; simp
    have hk : ∀ k, coeffOf p (k + 1) = coeffOf ⟨l⟩ k := by intro k; unfold coeffOf; rw [h]; simp
    rw [hc]
    simp only [h, List.concat_eq_append, List.getLast?_append, List.getLast?_singleton, Option.some_or, hx, Bool.false_eq_true, if_false,
      List.dropLast_concat, List.length_append, List.length_singleton, Nat.add_sub_cancel]
    rw [foldl_horner]
    refine SameNum.add ?_ (.refl _)
    have : ∀ n b, horner (fun d => coeffOf ⟨l⟩ (d - 1)) x n b = horner (coeffOf p) x n b := by
      intro n
      induction n with
      | zero => intros; rfl
      | succ n ih => intro b; rw [horner, horner, ih]; simp only [hk, Nat.add_sub_cancel]
    exact .of_eq (this _ _)

theorem eval_zero (p : Poly (Fl f)) {x : Fl f} (hx : isZero x = true) : p.eval x = coeffOf p 0 := by
  unfold Poly.eval
  rcases List.eq_nil_or_concat p.terms with h | ⟨l, c, h⟩
  · unfold coeffOf; rw [h]; rfl
  · have hc : coeffOf p 0 = c := by unfold coeffOf; rw [h]; simp
    rw [hc]
    simp only [h, List.concat_eq_append, List.getLast?_append, List.getLast?_singleton, Option.some_or, hx, if_true]

theorem eval_horner' (p : Poly (Fl f)) {x : Fl f} (hx : isZero x = false) (hf : x.isFinite = true) {n : Nat} (hn : p.terms.length - 1 ≤ n) :
    SameNum (p.eval x) (horner (coeffOf p) x n 0 + coeffOf p 0) := by
  refine (eval_horner p hx).trans (SameNum.add ?_ (.refl _))
  obtain ⟨m, rfl⟩ := Nat.exists_eq_add_of_le hn
  exact (horner_lead hf (fun d hd => ⟨false, by rw [show coeffOf p d = 0 from coeffOf_ge _ (by omega)]; rfl⟩) ⟨_, zero_def⟩).symm

/-- C115: polynomials with the same coefficients have the same degree and the same terms, and the same value at every finite number; they
are equal (`==`) unless a coefficient is NaN. -/
theorem C115_same (p q : Poly (Fl f)) (h : SamePoly p q) :
    p.degree = q.degree ∧ p.orderedTermIter = q.orderedTermIter ∧ (∀ k, p.termWithDegree k = q.termWithDegree k) ∧
    (p.eq q = true ↔ .nan ∉ p.terms) ∧ (∀ x : Fl f, x.isFinite = true → SameNum (p.eval x) (q.eval x)) := by
  have ht : descTerms p.terms = descTerms q.terms := by
    rw [descTerms_upTo' p (le_max_left _ q.terms.length), descTerms_upTo' q (le_max_right p.terms.length _)]
    exact upTo_congr fun d _ => h d
  have hi : p.orderedTermIter = q.orderedTermIter := by rw [orderedTermIter_eq, orderedTermIter_eq, ht]
  have hw : ∀ (p : Poly (Fl f)) k, p.termWithDegree k = Term.new (coeffOf p k) k := by
    intro p k
    unfold Poly.termWithDegree termWithDeg
    split
    · rename_i hk
      unfold coeffOf
      congr 1
      simp only [List.getD_eq_getElem?_getD]
      rw [List.getElem?_reverse hk, show p.terms.length - k - 1 = p.terms.length - 1 - k by omega]
    · rename_i hk
      rw [show coeffOf p k = 0 from coeffOf_ge _ (by omega)]
      rfl
  have hdeg : ∀ p : Poly (Fl f), p.degree = match descTerms p.terms with
      | [] => .negInf
      | t :: _ => .num t.2 := by
    intro p
    unfold Poly.degree
    rw [denseDegree_eq, ← descTerms_dropWhile]
    cases hd : p.terms.dropWhile isZero with
    | nil => rfl
    | cons v vs =>
      have hv := dropWhile_head_not hd
      rw [descTerms, hv]
      rfl
  refine ⟨by rw [hdeg, hdeg, ht], hi, fun k => ?_, ?_, fun x hx => ?_⟩
  · rw [hw, hw]
    unfold Term.new
    rw [(h k).isZero]
    split
    · rfl
    · rename_i hz
      rcases h k with hk | ⟨_, hk⟩
      · rw [hk]
      · exact absurd (isZero_iff.2 hk) hz
  · rw [← C86_dense_self]
    unfold Poly.eq
    rw [← hi]
  · cases hz : isZero x with
    | true => rw [eval_zero p hz, eval_zero q hz]; exact h 0
    | false =>
      refine (eval_horner' p hz hx (le_max_left _ (q.terms.length - 1))).trans
        (.trans ?_ (eval_horner' q hz hx (le_max_right (p.terms.length - 1) _)).symm)
      exact (horner_congr (.refl _) (fun d _ => h d) (.refl _)).add (h 0)

/-! ## Laws -/

theorem SamePoly.symm {p q : Poly (Fl f)} (h : SamePoly p q) : SamePoly q p := fun k => (h k).symm

theorem allValid_neg {p : Poly (Fl f)} (h : AllValid p) : AllValid p.neg := by
  intro c hc
  obtain ⟨x, hx, rfl⟩ := List.mem_map.1 hc
  exact valid_neg (h x hx)

theorem allNumbers_neg {p : Poly (Fl f)} (h : AllNumbers p) : AllNumbers p.neg := by
  intro c hc
  obtain ⟨x, hx, rfl⟩ := List.mem_map.1 hc
  exact ⟨by rw [isFinite_neg]; exact (h x hx).1, valid_neg (h x hx).2⟩

/-- C115: sums, differences, negation and, for finite coefficients, products depend on the numbers only. -/
theorem C115_congr (hp : 1 ≤ f.p) (p p' q q' : Poly (Fl f)) (h1 : SamePoly p p') (h2 : SamePoly q q')
    (v1 : AllValid p) (v2 : AllValid q) (v1' : AllValid p') (v2' : AllValid q') :
    (∃ r r', p.add q = .ok r ∧ p'.add q' = .ok r' ∧ SamePoly r r') ∧
    (∃ r r', p.sub q = .ok r ∧ p'.sub q' = .ok r' ∧ SamePoly r r') ∧ SamePoly p.neg p'.neg ∧
    (AllNumbers p → AllNumbers q → AllNumbers p' → AllNumbers q' → ∀ r r', p.mul q = .ok r → p'.mul q' = .ok r' → SamePoly r r') := by
  obtain ⟨⟨r, hr, cr⟩, -⟩ := C115_add_coeff hp p q v1 v2
  obtain ⟨⟨r', hr', cr'⟩, -⟩ := C115_add_coeff hp p' q' v1' v2'
  obtain ⟨⟨s, hs, cs⟩, -⟩ := C115_sub_coeff hp p q v1 v2
  obtain ⟨⟨s', hs', cs'⟩, -⟩ := C115_sub_coeff hp p' q' v1' v2'
  refine ⟨⟨r, r', hr, hr', fun k => (cr k).trans (((h1 k).add (h2 k)).trans (cr' k).symm)⟩,
    ⟨s, s', hs, hs', fun k => (cs k).trans (((h1 k).sub (h2 k)).trans (cs' k).symm)⟩,
    fun k => (C115_neg_coeff p k).trans ((h1 k).neg.trans (C115_neg_coeff p' k).symm), fun n1 n2 n1' n2' t t' ht ht' k => ?_⟩
  exact (C115_mul_coeff hp p q t n1 n2 (.inl ht) k).trans
    ((convSum_congr h1 h2 k).trans (C115_mul_coeff hp p' q' t' n1' n2' (.inl ht') k).symm)

/-- C115: the laws of addition, subtraction and negation (addition is commutative by C67). -/
theorem C115_add_laws (hp : 1 ≤ f.p) (p q : Poly (Fl f)) (hpv : AllValid p) (hqv : AllValid q) :
    (∃ r, p.add Poly.zero = .ok r ∧ SamePoly r p) ∧
    (∃ r, p.sub Poly.zero = .ok r ∧ SamePoly r p) ∧
    (∃ r, Poly.zero.sub p = .ok r ∧ SamePoly r p.neg) ∧
    (∃ r r', p.sub q = .ok r ∧ p.add q.neg = .ok r' ∧ SamePoly r r') ∧
    (∃ r r', p.sub q = .ok r ∧ q.sub p = .ok r' ∧ SamePoly r' r.neg) ∧
    (∃ r r', p.add q = .ok r ∧ p.neg.add q.neg = .ok r' ∧ SamePoly r' r.neg) ∧
    p.neg.neg = p ∧
    (AllNumbers p → ∃ r, p.sub p = .ok r ∧ SamePoly r Poly.zero) := by
  have hz : AllValid (Poly.zero : Poly (Fl f)) := fun c hc => nomatch hc
  have hzc : ∀ k, coeffOf (Poly.zero : Poly (Fl f)) k = 0 := fun k => coeffOf_ge [] (Nat.zero_le k)
  obtain ⟨⟨a, ha, ca⟩, -⟩ := C115_add_coeff hp p Poly.zero hpv hz
  obtain ⟨⟨b, hb, cb⟩, -⟩ := C115_sub_coeff hp p Poly.zero hpv hz
  obtain ⟨⟨b', hb', cb'⟩, -⟩ := C115_sub_coeff hp Poly.zero p hz hpv
  obtain ⟨⟨c, hc, cc⟩, -⟩ := C115_sub_coeff hp p q hpv hqv
  obtain ⟨⟨d, hd, cd⟩, -⟩ := C115_add_coeff hp p q.neg hpv (allValid_neg hqv)
  obtain ⟨⟨e, he, ce⟩, -⟩ := C115_sub_coeff hp q p hqv hpv
  obtain ⟨⟨g, hg, cg⟩, -⟩ := C115_add_coeff hp p q hpv hqv
  obtain ⟨⟨i, hi, ci⟩, -⟩ := C115_add_coeff hp p.neg q.neg (allValid_neg hpv) (allValid_neg hqv)
  obtain ⟨⟨j, hj, cj⟩, -⟩ := C115_sub_coeff hp p p hpv hpv
  refine ⟨⟨a, ha, fun k => (ca k).trans ?_⟩, ⟨b, hb, fun k => (cb k).trans ?_⟩, ⟨b', hb', fun k => (cb' k).trans ?_⟩,
    ⟨c, d, hc, hd, fun k => (cc k).trans (.trans ?_ (cd k).symm)⟩,
    ⟨c, e, hc, he, fun k => (ce k).trans (.trans ?_ (C115_neg_coeff c k).symm)⟩,
    ⟨g, i, hg, hi, fun k => (ci k).trans (.trans ?_ (C115_neg_coeff g k).symm)⟩, ?_, fun hn => ⟨j, hj, fun k => (cj k).trans ?_⟩⟩
  · rw [hzc]; exact add_zero_same hp ⟨_, zero_def⟩ (hpv.coeff k)
  · rw [hzc, sub_def]; exact add_zero_same hp ⟨true, rfl⟩ (hpv.coeff k)
  · rw [hzc, sub_def]; exact (zero_add_same hp ⟨_, zero_def⟩ (valid_neg (hpv.coeff k))).trans (C115_neg_coeff p k).symm
  · rw [sub_def]; exact SameNum.add (.refl _) (C115_neg_coeff q k).symm
  · refine SameNum.trans ?_ (cc k).neg.symm
    rw [sub_def, sub_def]
    refine SameNum.trans ?_ (neg_add_same _ _).symm
    rw [neg_neg', add_comm']; exact .refl _
  · exact ((C115_neg_coeff p k).add (C115_neg_coeff q k)).trans ((neg_add_same _ _).symm.trans (cg k).neg.symm)
  · obtain ⟨t⟩ := p
    show (⟨(t.map fun x => -x).map fun x => -x⟩ : Poly (Fl f)) = ⟨t⟩
    rw [List.map_map]
    congr 1
    conv_rhs => rw [← List.map_id t]
    exact List.map_congr_left fun x _ => neg_neg' x
  · rw [hzc, sub_self' (hn.coeff k).1]; exact .refl _

theorem mul_returns {p q : Poly (Fl f)} (h : (∃ c ∈ p.terms, isZero c = false) ∨ ∃ c ∈ q.terms, isZero c = false) :
    ∃ r, p.mul q = .ok r := by
  refine (C68_mul_panics_iff p q).2.2 ?_
  rintro ⟨h1, h2⟩
  rcases h with ⟨c, hc, hz⟩ | ⟨c, hc, hz⟩
  · rw [h1 c hc] at hz; cases hz
  · rw [h2 c hc] at hz; cases hz

theorem mul_returns_of {p q p' q' : Poly (Fl f)} {r : Poly (Fl f)} (h : p.mul q = .ok r)
    (h1 : (∀ c ∈ p'.terms, isZero c = true) → ∀ c ∈ p.terms, isZero c = true)
    (h2 : (∀ c ∈ q'.terms, isZero c = true) → ∀ c ∈ q.terms, isZero c = true) : ∃ r', p'.mul q' = .ok r' := by
  refine (C68_mul_panics_iff p' q').2.2 fun hh => ?_
  exact (C68_mul_panics_iff p q).2.1 ⟨r, h⟩ ⟨h1 hh.1, h2 hh.2⟩

theorem neg_zeros {p : Poly (Fl f)} (h : ∀ c ∈ p.neg.terms, isZero c = true) : ∀ c ∈ p.terms, isZero c = true := by
  intro c hc
  obtain ⟨s, hs⟩ := isZero_iff.1 (h (-c) (List.mem_map.2 ⟨c, hc, rfl⟩))
  rw [isZero_iff]
  refine ⟨!s, ?_⟩
  rw [← neg_neg' c, hs]; rfl

/-- C115: negating a factor negates the product. -/
theorem C115_mul_neg (hp : 1 ≤ f.p) (p q r : Poly (Fl f)) (hpn : AllNumbers p) (hqn : AllNumbers q) (h : p.mul q = .ok r) :
    (∃ s, p.neg.mul q = .ok s ∧ SamePoly s r.neg) ∧ (∃ s, p.mul q.neg = .ok s ∧ SamePoly s r.neg) ∧
    (∃ s, p.neg.mul q.neg = .ok s ∧ SamePoly s r) := by
  have hr := C115_mul_coeff hp p q r hpn hqn (.inl h)
  have key : ∀ k, SameNum (descSum (fun d => -(coeffOf q d * coeffOf p (k - d))) (k + 1) 0) (-convSum p q k) := by
    intro k
    refine (descSum_congr (fun d _ => .refl _) (a' := -0) (.zeros ⟨_, zero_def⟩ ⟨true, rfl⟩)).trans descSum_neg
  obtain ⟨s1, h1⟩ := mul_returns_of (p' := p.neg) (q' := q) h neg_zeros id
  obtain ⟨s2, h2⟩ := mul_returns_of (p' := p) (q' := q.neg) h id neg_zeros
  obtain ⟨s3, h3⟩ := mul_returns_of (p' := p.neg) (q' := q.neg) h neg_zeros neg_zeros
  have c1 := C115_mul_coeff hp p.neg q s1 (allNumbers_neg hpn) hqn (.inl h1)
  have c2 := C115_mul_coeff hp p q.neg s2 hpn (allNumbers_neg hqn) (.inl h2)
  have c3 := C115_mul_coeff hp p.neg q.neg s3 (allNumbers_neg hpn) (allNumbers_neg hqn) (.inl h3)
  refine ⟨⟨s1, h1, fun k => (c1 k).trans (.trans ?_ (C115_neg_coeff r k).symm)⟩,
    ⟨s2, h2, fun k => (c2 k).trans (.trans ?_ (C115_neg_coeff r k).symm)⟩, ⟨s3, h3, fun k => (c3 k).trans (.trans ?_ (hr k).symm)⟩⟩
  · refine SameNum.trans ?_ (hr k).neg.symm
    refine SameNum.trans (descSum_congr (fun d _ => ?_) (.refl _)) (key k)
    refine (SameNum.mul (.refl _) (C115_neg_coeff p _)).trans ?_
    rw [mul_neg']; exact .refl _
  · refine SameNum.trans ?_ (hr k).neg.symm
    refine SameNum.trans (descSum_congr (fun d _ => ?_) (.refl _)) (key k)
    refine (SameNum.mul (C115_neg_coeff q _) (.refl _)).trans ?_
    rw [← neg_mul']; exact .refl _
  · refine descSum_congr (fun d _ => ?_) (.refl _)
    refine (SameNum.mul (C115_neg_coeff q _) (C115_neg_coeff p _)).trans ?_
    rw [mul_neg', ← neg_mul', neg_neg']; exact .refl _

theorem coeffOf_single (a : Fl f) (k : Nat) : coeffOf ⟨[a]⟩ k = if k = 0 then a else 0 := by
  cases k <;> rfl

/-- C115: a constant factor on either side multiplies every coefficient, as multiplying by the number does; 1 is neutral. -/
theorem C115_mul_const (hp : 1 ≤ f.p) (p : Poly (Fl f)) (hpn : AllNumbers p) (a : Fl f) (ha : a.isFinite = true) (hav : a.Valid)
    (ha0 : isZero a = false) :
    (∃ r, p.mul ⟨[a]⟩ = .ok r ∧ SamePoly r (p.mulScalar a)) ∧ (∃ r, (⟨[a]⟩ : Poly (Fl f)).mul p = .ok r ∧ SamePoly r (p.mulScalar a)) ∧
    (a = 1 → SamePoly (p.mulScalar a) p) := by
  have hn : AllNumbers (⟨[a]⟩ : Poly (Fl f)) := fun c hc => by
    rw [List.mem_singleton.1 hc]; exact ⟨ha, hav⟩
  obtain ⟨r, hr⟩ := mul_returns (p := p) (q := ⟨[a]⟩) (.inr ⟨a, by simp, ha0⟩)
  obtain ⟨r', hr'⟩ := mul_returns (p := ⟨[a]⟩) (q := p) (.inl ⟨a, by simp, ha0⟩)
  refine ⟨⟨r, hr, fun k => (C115_mul_coeff hp _ _ r hpn hn (.inl hr) k).trans (.trans ?_ (C115_scale_coeff p a k (.inl ha)).1.symm)⟩,
    ⟨r', hr', fun k => (C115_mul_coeff hp _ _ r' hn hpn (.inl hr') k).trans (.trans ?_ (C115_scale_coeff p a k (.inl ha)).1.symm)⟩,
    fun h1 k => (C115_scale_coeff p a k (.inl ha)).1.trans ?_⟩
  · unfold convSum
    have h := descSum_lead hp (n := 1) (m := k) (g := fun d => coeffOf ⟨[a]⟩ d * coeffOf p (k - d)) (fun d hd _ => by
      rw [coeffOf_single, if_neg (by omega)]
      exact zero_mul_num (hpn.coeff _).1 ⟨_, zero_def⟩) valid_zero
    rw [Nat.add_comm k 1]
    refine h.trans ?_
    show SameNum (0 + a * coeffOf p (k - 0)) _
    rw [mul_comm']
    exact zero_add_same hp ⟨_, zero_def⟩ (C65_closed hp _ _).2.2.1
  · unfold convSum
    show SameNum (descSum (fun d => coeffOf p d * coeffOf ⟨[a]⟩ (k - d)) k (0 + coeffOf p k * coeffOf ⟨[a]⟩ (k - k))) _
    rw [Nat.sub_self]
    refine (descSum_zeros hp (fun d hd => ?_) (C65_closed hp _ _).1).trans (zero_add_same hp ⟨_, zero_def⟩ (C65_closed hp _ _).2.2.1)
    rw [coeffOf_single, if_neg (by omega)]
    exact mul_zero_num (hpn.coeff _).1 ⟨_, zero_def⟩
  · rw [h1, mul_comm', one_mul' hp (hpn.coeff k).2 (hpn.coeff k).1]; exact .refl _

/-- C115: a factor of degree at most one may stand on either side: each coefficient is a sum of two products then. -/
theorem C115_mul_comm (hp : 1 ≤ f.p) (p q r s : Poly (Fl f)) (hpn : AllNumbers p) (hqn : AllNumbers q)
    (hq : ∀ k, 2 ≤ k → isZero (coeffOf q k) = true) (hr : p.mul q = .ok r) (hs : q.mul p = .ok s) : SamePoly r s := by
  intro k
  refine (C115_mul_coeff hp p q r hpn hqn (.inl hr) k).trans (.trans ?_ (C115_mul_coeff hp q p s hqn hpn (.inl hs) k).symm)
  unfold convSum
  cases k with
  | zero =>
    show SameNum (0 + coeffOf q 0 * coeffOf p 0) (0 + coeffOf p 0 * coeffOf q 0)
    rw [mul_comm']; exact .refl _
  | succ k =>
    have h1 := descSum_lead hp (n := 2) (m := k) (g := fun d => coeffOf q d * coeffOf p (k + 1 - d)) (fun d hd _ =>
      zero_mul_num (hpn.coeff _).1 (isZero_iff.1 (hq d hd))) valid_zero
    rw [show k + 1 + 1 = 2 + k by omega]
    refine h1.trans ?_
    show SameNum (0 + coeffOf q 1 * coeffOf p (k + 1 - 1) + coeffOf q 0 * coeffOf p (k + 1 - 0)) _
    rw [show 2 + k = k + 2 by omega]
    show SameNum _ (descSum (fun d => coeffOf p d * coeffOf q (k + 1 - d)) k
      (0 + coeffOf p (k + 1) * coeffOf q (k + 1 - (k + 1)) + coeffOf p k * coeffOf q (k + 1 - k)))
    refine SameNum.trans ?_ (descSum_zeros hp (fun d hd => mul_zero_num (hpn.coeff _).1 (isZero_iff.1 (hq _ (by omega))))
      (C65_closed hp _ _).1).symm
    rw [Nat.sub_self, show k + 1 - k = 1 by omega, Nat.sub_zero, Nat.add_sub_cancel, mul_comm' (coeffOf p (k + 1)),
      mul_comm' (coeffOf p k)]
    refine ((zero_add_same hp ⟨_, zero_def⟩ (C65_closed hp _ _).2.2.1).add (.refl _)).trans ?_
    rw [add_comm']
    exact (SameNum.add (zero_add_same hp ⟨_, zero_def⟩ (C65_closed hp _ _).2.2.1) (.refl _)).symm

/-- C115: signs and numbers: multiplying by a number. -/
theorem C115_scale_laws (p : Poly (Fl f)) (a : Fl f) (ha : a.isFinite = true) :
    SamePoly (p.mulScalar (-a)) (p.mulScalar a).neg ∧ SamePoly (p.neg.mulScalar a) (p.mulScalar a).neg ∧
    SamePoly (p.neg.mulScalar (-a)) (p.mulScalar a) := by
  have hna : (-a).isFinite = true := by rw [isFinite_neg]; exact ha
  refine ⟨fun k => ?_, fun k => ?_, fun k => ?_⟩
  · refine (C115_scale_coeff p (-a) k (.inl hna)).1.trans (.trans ?_ (C115_neg_coeff _ k).symm)
    rw [mul_neg']; exact (C115_scale_coeff p a k (.inl ha)).1.neg.symm
  · refine (C115_scale_coeff p.neg a k (.inl ha)).1.trans (.trans ?_ (C115_neg_coeff _ k).symm)
    refine (mul_same_left (C115_neg_coeff p k) a).trans ?_
    rw [← neg_mul']; exact (C115_scale_coeff p a k (.inl ha)).1.neg.symm
  · refine (C115_scale_coeff p.neg (-a) k (.inl hna)).1.trans ?_
    refine (mul_same_left (C115_neg_coeff p k) (-a)).trans ?_
    rw [mul_neg', ← neg_mul', neg_neg']; exact (C115_scale_coeff p a k (.inl ha)).1.symm

/-- C115: the value of `-p` is the negated value of `p`, everywhere, and for all coefficients. -/
theorem C115_eval_neg (p : Poly (Fl f)) (x : Fl f) : SameNum (p.neg.eval x) (-p.eval x) := by
  cases hz : isZero x with
  | true => rw [eval_zero _ hz, eval_zero _ hz]; exact C115_neg_coeff p 0
  | false =>
    refine (eval_horner p.neg hz).trans (.trans ?_ (eval_horner p hz).neg.symm)
    rw [show p.neg.terms.length = p.terms.length from List.length_map ..]
    refine SameNum.trans ?_ (neg_add_same _ _).symm
    refine SameNum.add ?_ (C115_neg_coeff p 0)
    exact (horner_congr (.refl _) (fun d _ => C115_neg_coeff p d) (a' := -0) (.zeros ⟨_, zero_def⟩ ⟨true, rfl⟩)).trans horner_neg

theorem coeffOf_replicate (n k : Nat) : coeffOf ⟨List.replicate n (0 : Fl f)⟩ k = 0 := by
  unfold coeffOf
  rw [List.getD_eq_getElem?_getD, List.reverse_replicate, List.getElem?_replicate]
  split <;> rfl

/-- C115: shifting moves the coefficients. -/
theorem C115_shl_coeff (p : Poly (Fl f)) (n : Nat) :
    ∃ r, p.shl (n : Int) = .ok r ∧ (∀ k, SameNum (coeffOf r k) (if k < n then 0 else coeffOf p (k - n))) ∧
      (AllValid p → AllValid r) ∧ (AllNumbers p → AllNumbers r) := by
  unfold Poly.shl Poly.shlPos
  rw [if_neg (by omega), Int.toNat_natCast, sliceFrom_ok (firstNonzeroIndex_le _), Res.ok_bind, drop_firstNonzeroIndex]
  refine ⟨_, rfl, fun k => ?_, fun h c hc => ?_, fun h c hc => ?_⟩
  · rw [coeffOf_append, List.length_replicate]
    split
    · rw [coeffOf_replicate]; exact .refl _
    · exact coeffOf_dropWhile p.terms _
  · rcases List.mem_append.1 hc with hc | hc
    · exact h c ((List.dropWhile_sublist _).subset hc)
    · rw [(List.mem_replicate.1 hc).2]; exact valid_zero
  · rcases List.mem_append.1 hc with hc | hc
    · exact h c ((List.dropWhile_sublist _).subset hc)
    · rw [(List.mem_replicate.1 hc).2]; exact ⟨rfl, valid_zero⟩

/-- Shifting the index of a sum. -/
theorem descSum_shift (g : Nat → Fl f) (n : Nat) : ∀ (m : Nat) (a : Fl f),
    descSum g (m + n) a = descSum g n (descSum (fun d => g (d + n)) m a)
  | 0, a => by rw [Nat.zero_add]; rfl
  | m + 1, a => by
    rw [show m + 1 + n = (m + n) + 1 by omega]
    exact descSum_shift g n m (a + g (m + n))

/-- C115: shifting commutes with sums and with products, whichever factor is shifted. -/
theorem C115_shl_laws (hp : 1 ≤ f.p) (p q : Poly (Fl f)) (n : Nat) :
    (AllValid p → AllValid q → ∃ p' q' r r' s, p.shl (n : Int) = .ok p' ∧ q.shl (n : Int) = .ok q' ∧ p.add q = .ok r ∧
      r.shl (n : Int) = .ok r' ∧ p'.add q' = .ok s ∧ SamePoly s r') ∧
    (AllNumbers p → AllNumbers q → ∀ p' q' r r' s t, p.shl (n : Int) = .ok p' → q.shl (n : Int) = .ok q' → p.mul q = .ok r →
      r.shl (n : Int) = .ok r' → p'.mul q = .ok s → p.mul q' = .ok t → SamePoly s r' ∧ SamePoly t r') := by
  obtain ⟨p', hp', cp, vp, np⟩ := C115_shl_coeff p n
  obtain ⟨q', hq', cq, vq, nq⟩ := C115_shl_coeff q n
  constructor
  · intro hpv hqv
    obtain ⟨⟨r, hr, cr⟩, -⟩ := C115_add_coeff hp p q hpv hqv
    obtain ⟨r', hr', cr', -⟩ := C115_shl_coeff r n
    obtain ⟨⟨s, hs, cs⟩, -⟩ := C115_add_coeff hp p' q' (vp hpv) (vq hqv)
    refine ⟨p', q', r, r', s, hp', hq', hr, hr', hs, fun k => (cs k).trans (.trans ?_ (cr' k).symm)⟩
    refine ((cp k).add (cq k)).trans ?_
    split
    · exact .zeros (zero_add_zero ⟨_, zero_def⟩ ⟨_, zero_def⟩) ⟨_, zero_def⟩
    · exact (cr _).symm
  · intro hpn hqn p'' q'' r r' s t e1 e2 hr e3 hs ht
    rw [hp'] at e1; cases e1
    rw [hq'] at e2; cases e2
    obtain ⟨r'', hr'', cr, -⟩ := C115_shl_coeff r n
    rw [hr''] at e3; cases e3
    refine ⟨fun k => (C115_mul_coeff hp _ _ s (np hpn) hqn (.inl hs) k).trans (.trans ?_ (cr k).symm),
      fun k => (C115_mul_coeff hp _ _ t hpn (nq hqn) (.inl ht) k).trans (.trans ?_ (cr k).symm)⟩
    · have hz : ∀ d, d ≤ k → k < d + n → ∃ s, coeffOf q d * coeffOf p' (k - d) = .fin s 0 := by
        intro d hd0 hd
        refine mul_zero_num (hqn.coeff d).1 ?_
        have := cp (k - d)
        by_cases hk : k - d < n
        · rw [if_pos hk] at this
          exact isZero_iff.1 (by rw [this.isZero]; rfl)
        · omega
      unfold convSum
      split
      · exact (descSum_zeros hp (fun d _ => hz d (by omega) (by omega)) valid_zero).trans (.refl _)
      · rename_i hk
        refine SameNum.trans ?_ (C115_mul_coeff hp p q r hpn hqn (.inl hr) (k - n)).symm
        have h1 := descSum_lead hp (n := k - n + 1) (m := n) (g := fun d => coeffOf q d * coeffOf p' (k - d))
          (fun d h1 _ => hz d (by omega) (by omega)) valid_zero
        rw [show k - n + 1 + n = k + 1 by omega] at h1
        refine h1.trans (descSum_congr (fun d hd => SameNum.mul (.refl _) ?_) (.refl _))
        have := cp (k - d)
        rw [if_neg (by omega), show k - d - n = k - n - d by omega] at this
        exact this
    · have hz : ∀ d, d < n → ∃ s, coeffOf q' d * coeffOf p (k - d) = .fin s 0 := by
        intro d hd
        refine zero_mul_num (hpn.coeff _).1 ?_
        have := cq d
        rw [if_pos hd] at this
        exact isZero_iff.1 (by rw [this.isZero]; rfl)
      unfold convSum
      split
      · exact (descSum_zeros hp (fun d _ => hz d (by omega)) valid_zero).trans (.refl _)
      · rename_i hk
        refine SameNum.trans ?_ (C115_mul_coeff hp p q r hpn hqn (.inl hr) (k - n)).symm
        rw [show k + 1 = (k - n + 1) + n by omega, descSum_shift]
        refine (descSum_zeros hp hz (descSum_valid hp valid_zero)).trans (descSum_congr (fun d hd => ?_) (.refl _))
        have := cq (d + n)
        rw [if_neg (by omega), Nat.add_sub_cancel] at this
        refine this.mul (.of_eq ?_)
        congr 1
        omega

/-! ## Laws that fail -/

/-- C115: products do not distribute over sums, sums can not be undone by differences, and products and multiples are not associative (nor
are sums, C67, nor are products of degree two and more commutative, C68). -/
theorem C115_laws_false :
    (∃ p q r s t u v w : Poly (Fl binary64), p.add q = .ok s ∧ s.mul r = .ok t ∧ p.mul r = .ok u ∧ q.mul r = .ok v ∧ u.add v = .ok w ∧
      t.eq w = false) ∧
    (∃ p q r s : Poly (Fl binary64), p.add q = .ok r ∧ r.sub q = .ok s ∧ s.eq p = false) ∧
    (∃ p q r s t u v : Poly (Fl binary64), p.mul q = .ok s ∧ s.mul r = .ok t ∧ q.mul r = .ok u ∧ p.mul u = .ok v ∧ t.eq v = false) ∧
    (∃ (p : Poly (Fl binary64)) (a b : Fl binary64), ((p.mulScalar a).mulScalar b).eq (p.mulScalar (a * b)) = false) := by
  refine ⟨⟨⟨[1, ofNat (2 ^ 53)]⟩, ⟨[1, 1]⟩, ⟨[ofNat 3]⟩, ⟨[ofNat 2, ofNat (2 ^ 53)]⟩, ⟨[ofNat 6, ofNat (3 * 2 ^ 53)]⟩,
    ⟨[ofNat 3, ofNat (3 * 2 ^ 53)]⟩, ⟨[ofNat 3, ofNat 3]⟩, ⟨[ofNat 6, ofNat (3 * 2 ^ 53 + 4)]⟩, ?_⟩,
    ⟨⟨[1, 1]⟩, ⟨[1, ofNat (2 ^ 53)]⟩, ⟨[ofNat 2, ofNat (2 ^ 53)]⟩, ⟨[1, 0]⟩, ?_⟩, ?_, ?_⟩
  · decide +kernel
  · decide +kernel
  · refine ⟨⟨[1, ofNat 3]⟩, ⟨[div 1 (ofNat 5)]⟩, ⟨[div 1 (ofNat 7)]⟩, ?_⟩
    exact ⟨⟨[div 1 (ofNat 5), ofNat 3 * div 1 (ofNat 5)]⟩,
      ⟨[div 1 (ofNat 5) * div 1 (ofNat 7), ofNat 3 * div 1 (ofNat 5) * div 1 (ofNat 7)]⟩,
      ⟨[div 1 (ofNat 5) * div 1 (ofNat 7)]⟩,
      ⟨[div 1 (ofNat 5) * div 1 (ofNat 7), ofNat 3 * (div 1 (ofNat 5) * div 1 (ofNat 7))]⟩, by decide +kernel⟩
  · exact ⟨⟨[ofNat 3]⟩, div 1 (ofNat 5), div 1 (ofNat 7), by decide +kernel⟩

/-! ## Cases -/

/-- `0.1x + 3` and `7x² - 0.3x + 2^53`. -/
def exLawP : Poly (Fl binary64) := ⟨[div 1 (ofNat 10), ofNat 3]⟩
def exLawQ : Poly (Fl binary64) := ⟨[ofNat 7, -div (ofNat 3) (ofNat 10), ofNat (2 ^ 53)]⟩

seal Valid in
theorem exLaw_numbers : AllNumbers exLawP ∧ AllNumbers exLawQ := by
  have h10 : (div 1 (ofNat 10) : Fl binary64).isFinite = true ∧ (div 1 (ofNat 10) : Fl binary64).Valid :=
    ⟨by decide +kernel, valid_div (f := binary64) (by decide) _ _⟩
  have hn : ∀ n, (ofNat n : Fl binary64).isFinite = true → (ofNat n : Fl binary64).isFinite = true ∧ (ofNat n : Fl binary64).Valid :=
    fun n h => ⟨h, valid_ofNat (f := binary64) (by decide) n⟩
  constructor
  · intro c hc
    simp only [exLawP, List.mem_cons, List.not_mem_nil, or_false] at hc
    rcases hc with hc | hc <;> rw [hc]
    · exact h10
    · exact hn 3 (by decide +kernel)
  · intro c hc
    simp only [exLawQ, List.mem_cons, List.not_mem_nil, or_false] at hc
    rcases hc with hc | hc | hc <;> rw [hc]
    · exact hn 7 (by decide +kernel)
    · exact ⟨by decide +kernel, valid_neg (valid_div (f := binary64) (by decide) _ _)⟩
    · exact hn _ (by decide +kernel)

-- the laws apply to these two; the product is commutative, since one factor is linear
example : (∃ r r', exLawP.sub exLawQ = .ok r ∧ exLawP.add exLawQ.neg = .ok r' ∧ SamePoly r r') ∧
    ∃ r s, exLawP.mul exLawQ = .ok r ∧ exLawQ.mul exLawP = .ok s ∧ SamePoly r s := by
  obtain ⟨h1, h2⟩ := exLaw_numbers
  refine ⟨(C115_add_laws (by decide) exLawP exLawQ h1.valid h2.valid).2.2.2.1, ?_⟩
  obtain ⟨r, hr⟩ := mul_returns (p := exLawP) (q := exLawQ) (.inr ⟨ofNat 7, List.mem_cons_self, by decide +kernel⟩)
  obtain ⟨s, hs⟩ := mul_returns (p := exLawQ) (q := exLawP) (.inl ⟨ofNat 7, List.mem_cons_self, by decide +kernel⟩)
  refine ⟨r, s, hr, hs, (SamePoly.symm (C115_mul_comm (by decide) exLawQ exLawP s r h2 h1 (fun k hk => ?_) hs hr))⟩
  rw [show coeffOf exLawP k = 0 from coeffOf_ge _ hk]; rfl

-- a zero may change its sign: `-(x + -x)` is `-0.0`, `-x + x` is `0.0`
example : SameNum (.fin true 0 : Fl binary64) (.fin false 0) ∧ ¬ SameNum (1 : Fl binary64) (-1) ∧
    SameNum (.nan : Fl binary64) .nan := by
  refine ⟨.inr ⟨⟨_, rfl⟩, _, rfl⟩, ?_, .inl rfl⟩
  rintro (h | ⟨⟨s, h⟩, _⟩)
  · exact absurd h (by decide +kernel)
  · have : (1 : Fl binary64) ≠ .fin true 0 ∧ (1 : Fl binary64) ≠ .fin false 0 := by decide +kernel
    cases s
    exacts [this.2 h, this.1 h]

end Fl
end Rustnomial
