import Verif.SpecExpr
import Verif.Props.Exact
import Verif.Props.DenseShift
import Verif.Props.DenseCalc
import Verif.Props.DenseDiv
import Verif.Props.Interchange
import Verif.Props.MachineHistory
import Verif.Props.MachinePowExact
import Verif.Props.CheckedAgree

/-!
# C119: any expression
-/

open Polynomial

set_option linter.unusedSectionVars false

namespace Rustnomial

/-! ## The shape of the argument -/

/-- A step is possible exactly under `ok`, and its result then represents `P`; otherwise it panics. -/
def StepIs {V A : Type} (rel : V → A → Prop) (ok : Prop) (P : A) (x : Res V) : Prop :=
  (ok → ∃ r, x = .ok r ∧ rel r P) ∧ (¬ ok → x = .panic)

theorem StepIs.bind {V A : Type} {rel : V → A → Prop} {ok : Prop} {P : A} {x : Res V} (h : StepIs rel ok P x) {ok' : Prop} {Q : A}
    {f : V → Res V} (hf : ∀ r, rel r P → StepIs rel ok' Q (f r)) : StepIs rel (ok ∧ ok') Q (x >>= f) := by
  constructor
  · rintro ⟨h1, h2⟩
    obtain ⟨r, rfl, hr⟩ := h.1 h1
    exact (hf r hr).1 h2
  · intro hn
    by_cases h1 : ok
    · obtain ⟨r, rfl, hr⟩ := h.1 h1
      exact (hf r hr).2 fun h2 => hn ⟨h1, h2⟩
    · rw [h.2 h1]; rfl

theorem StepIs.of_ok {V A : Type} {rel : V → A → Prop} {P : A} {x : Res V} (h : ∃ r, x = .ok r ∧ rel r P) : StepIs rel True P x :=
  ⟨fun _ => h, fun n => absurd trivial n⟩

theorem StepIs.of_iff {V A : Type} {rel : V → A → Prop} {P : A} {x : Res V} {a b : Prop} (h : StepIs rel a P x) (e : a ↔ b) :
    StepIs rel b P x := by
  rwa [← propext e]

/-- The operators `o` compute with representations of polynomials. -/
structure Computes {V R : Type} [CommRing R] (o : ROps V R) (rel : V → R[X] → Prop) (num : R → Prop) (resOk : R[X] → Prop)
    (mulOk : R[X] → R[X] → Prop) (powOk : R[X] → Nat → Prop) : Prop where
  lit : ∀ cs, (∀ c ∈ cs, num c) → rel (o.lit cs) (descPoly cs)
  neg : ∀ x P, rel x P → StepIs rel (resOk (-P)) (-P) (o.neg x)
  add : ∀ x P y Q, rel x P → rel y Q → StepIs rel (resOk (P + Q)) (P + Q) (o.add x y)
  sub : ∀ x P y Q, rel x P → rel y Q → StepIs rel (resOk (P - Q)) (P - Q) (o.sub x y)
  mul : ∀ x P y Q, rel x P → rel y Q → StepIs rel (mulOk P Q) (P * Q) (o.mul x y)
  pow : ∀ x P n, rel x P → StepIs rel (powOk P n) (P ^ n) (o.pow x n)
  scale : ∀ x P c, num c → rel x P → StepIs rel (resOk (C c * P)) (C c * P) (o.scale x c)
  shl : ∀ x P (k : Nat), rel x P → StepIs rel True (P * X ^ k) (o.shl x k)

theorem Computes.run {V R : Type} [CommRing R] {o : ROps V R} {rel : V → R[X] → Prop} {num : R → Prop} {resOk : R[X] → Prop}
    {mulOk : R[X] → R[X] → Prop} {powOk : R[X] → Nat → Prop} (K : Computes o rel num resOk mulOk powOk) :
    ∀ e : RExpr R, e.Numbers num → StepIs rel (e.Goes resOk mulOk powOk) e.den (e.run o)
  | .lit cs, h => StepIs.of_ok ⟨_, rfl, K.lit cs h⟩
  | .neg a, h => (K.run a h).bind fun r hr => K.neg r _ hr
  | .add a b, h => (K.run a h.1).bind fun r hr => (K.run b h.2).bind fun s hs => K.add r _ s _ hr hs
  | .sub a b, h => (K.run a h.1).bind fun r hr => (K.run b h.2).bind fun s hs => K.sub r _ s _ hr hs
  | .mul a b, h => (K.run a h.1).bind fun r hr => (K.run b h.2).bind fun s hs => K.mul r _ s _ hr hs
  | .pow a n, h => (K.run a h).bind fun r hr => K.pow r _ n hr
  | .scale a c, h => (K.run a h.1).bind fun r hr => K.scale r _ c h.2 hr
  | .shl a k, h => ((K.run a h).bind fun r hr => K.shl r _ k hr).of_iff (and_iff_left trivial)

theorem RExpr.numbers_true {R : Type} [CommRing R] : ∀ e : RExpr R, e.Numbers fun _ => True
  | .lit _ => fun _ _ => trivial
  | .neg a => a.numbers_true
  | .add a b => ⟨a.numbers_true, b.numbers_true⟩
  | .sub a b => ⟨a.numbers_true, b.numbers_true⟩
  | .mul a b => ⟨a.numbers_true, b.numbers_true⟩
  | .pow a _ => a.numbers_true
  | .scale a _ => ⟨a.numbers_true, trivial⟩
  | .shl a _ => a.numbers_true

theorem RExpr.goes_true {R : Type} [CommRing R] : ∀ e : RExpr R, e.Goes (fun _ => True) (fun _ _ => True) fun _ _ => True
  | .lit _ => trivial
  | .neg a => ⟨a.goes_true, trivial⟩
  | .add a b => ⟨a.goes_true, b.goes_true, trivial⟩
  | .sub a b => ⟨a.goes_true, b.goes_true, trivial⟩
  | .mul a b => ⟨a.goes_true, b.goes_true, trivial⟩
  | .pow a _ => ⟨a.goes_true, trivial⟩
  | .scale a _ => ⟨a.goes_true, trivial⟩
  | .shl a _ => a.goes_true

theorem horner_eval {R : Type} [CommRing R] (x : R) (cs : List R) : cs.foldl (fun v c => v * x + c) 0 = (descPoly cs).eval x := by
  induction cs using List.reverseRecOn with
  | nil => simp
  | append_singleton cs c ih => rw [List.foldl_append]; simp [ih, descPoly_append, descPoly_cons]

theorem RExpr.at_eq {R : Type} [CommRing R] (x : R) : ∀ e : RExpr R, e.at x = e.den.eval x
  | .lit cs => horner_eval x cs
  | .neg a => by simp [RExpr.at, RExpr.den, a.at_eq x]
  | .add a b => by simp [RExpr.at, RExpr.den, a.at_eq x, b.at_eq x]
  | .sub a b => by simp [RExpr.at, RExpr.den, a.at_eq x, b.at_eq x]
  | .mul a b => by simp [RExpr.at, RExpr.den, a.at_eq x, b.at_eq x]
  | .pow a n => by simp [RExpr.at, RExpr.den, a.at_eq x]
  | .scale a c => by simp [RExpr.at, RExpr.den, a.at_eq x]
  | .shl a k => by simp [RExpr.at, RExpr.den, a.at_eq x]

/-! ## Exact coefficients -/

section
variable {R : Type} [CommRing R] [NumZero R] [LawfulNumZero R]

/-- C119: over a domain, computing any expression with `Polynomial`s returns the polynomial it denotes, unless somewhere two zero
polynomials are multiplied or zero is raised to a power from 2 on; then it panics. -/
theorem C119_dense [NoZeroDivisors R] (e : RExpr R) :
    (e.Goes (fun _ => True) (fun P Q => ¬ (P = 0 ∧ Q = 0)) (fun P n => ¬ (P = 0 ∧ 2 ≤ n)) →
      ∃ r, e.run denseOps = .ok r ∧ descPoly r.terms = e.den) ∧
    (¬ e.Goes (fun _ => True) (fun P Q => ¬ (P = 0 ∧ Q = 0)) (fun P n => ¬ (P = 0 ∧ 2 ≤ n)) → e.run denseOps = .panic) := by
  refine Computes.run (rel := fun (r : Poly R) P => descPoly r.terms = P) (num := fun _ => True) ⟨?_, ?_, ?_, ?_, ?_, ?_, ?_, ?_⟩ e
    e.numbers_true
  · exact fun cs _ => C01_new_same_polynomial cs
  · rintro x _ rfl; exact .of_ok ⟨_, rfl, (C10_dense_neg x).1⟩
  · rintro x _ y _ rfl rfl; exact .of_ok (C08_dense_add x y)
  · rintro x _ y _ rfl rfl; exact .of_ok (C09_dense_sub x y)
  · rintro x _ y _ rfl rfl
    obtain ⟨h1, h2⟩ := C58_dense_mul_outcome x y
    exact ⟨fun h => by obtain ⟨r, s, h3, -, h4, -⟩ := h2 h; exact ⟨r, h3, h4⟩, fun h => (h1 (not_not.1 h)).1⟩
  · rintro x _ n rfl
    obtain ⟨h1, h2⟩ := C58_dense_pow_outcome x n
    exact ⟨h2, fun h => h1 (not_not.1 h)⟩
  · rintro x _ c - rfl; exact .of_ok ⟨_, rfl, C13_dense_mul_scalar x c⟩
  · rintro x _ k rfl
    obtain ⟨r, h1, h2⟩ := (C14_dense_shl x k).1 (by omega)
    exact .of_ok ⟨r, h1, by simpa using h2⟩

/-- C119: computing any expression with `SparsePolynomial`s returns the polynomial it denotes. -/
theorem C119_sparse (e : RExpr R) : ∃ r, e.run sparseOps = .ok r ∧ entriesPoly r.terms.entries = e.den := by
  refine (Computes.run (o := sparseOps) (rel := fun (r : Sparse R) P => entriesPoly r.terms.entries = P) (num := fun _ => True)
    (resOk := fun _ => True) (mulOk := fun _ _ => True) (powOk := fun _ _ => True) ⟨?_, ?_, ?_, ?_, ?_, ?_, ?_, ?_⟩ e
    e.numbers_true).1 e.goes_true
  · exact fun cs _ => C28_sparse_from_vec cs
  · rintro x _ rfl; exact .of_ok ⟨_, rfl, C10_sparse_neg x⟩
  · rintro x _ y _ rfl rfl; exact .of_ok ⟨_, rfl, (C25_sparse_add x y).1⟩
  · rintro x _ y _ rfl rfl; exact .of_ok ⟨_, rfl, C25_sparse_sub x y⟩
  · rintro x _ y _ rfl rfl; exact .of_ok ⟨_, rfl, C26_sparse_mul x y⟩
  · rintro x _ n rfl; exact .of_ok ⟨_, rfl, C26_sparse_pow x n⟩
  · rintro x _ c - rfl; exact .of_ok ⟨_, rfl, (C13_sparse_mul_scalar x c).1⟩
  · rintro x _ k rfl
    obtain ⟨r, h1, h2, -⟩ := (C15_sparse_shift_partial x k (by omega)).1
    exact .of_ok ⟨r, h1, by simpa using h2 (by omega)⟩

/-- C119: evaluating the result at a point gives what the same expression gives on numbers, with either type (for the sparse type as
long as the degrees are below the bound up to which its power function is exact). -/
theorem C119_values [PowUsize R] [hl : LawfulPowUsize R] [NoZeroDivisors R] (e : RExpr R) (x : R) :
    (∀ r, e.run denseOps = .ok r → r.eval x = e.at x) ∧
    ((∀ d, e.den.coeff d ≠ 0 → d < hl.bound) → ∃ r, e.run sparseOps = .ok r ∧ r.eval x = e.at x) := by
  constructor
  · intro r h
    obtain ⟨h1, h2⟩ := C119_dense e
    by_cases hg : e.Goes (fun _ => True) (fun P Q => ¬ (P = 0 ∧ Q = 0)) (fun P n => ¬ (P = 0 ∧ 2 ≤ n))
    · obtain ⟨s, h3, h4⟩ := h1 hg
      rw [h] at h3; cases h3
      rw [C06_dense_eval, h4, e.at_eq]
    · rw [h2 hg] at h; cases h
  · intro hd
    obtain ⟨r, h1, h2⟩ := C119_sparse e
    refine ⟨r, h1, ?_⟩
    have hs : SamePoly (⟨(Poly.fromTerms r.orderedTermIter).terms⟩ : Poly R) r := by
      show descPoly (Poly.fromTerms r.orderedTermIter).terms = _
      rw [C31_dense_from_terms, C03_sparse_terms_sum]
    rw [← C28_eval_partial _ r hs x (fun d h => hd d (by rw [← h2, ← hs]; exact h)), C06_dense_eval, hs, h2, e.at_eq]

end

/-- `(x + 1)^3 * (2x - 1) - (x << 2)`. -/
def exExpr : RExpr ℤ := .sub (.mul (.pow (.lit [1, 1]) 3) (.lit [2, -1])) (.shl (.lit [1, 0]) 2)

/-- `(x - x) * (x - x)`. -/
def exZeros : RExpr ℤ := .mul (.sub (.lit [1, 0]) (.lit [1, 0])) (.sub (.lit [1, 0]) (.lit [1, 0]))

example : exExpr.run denseOps = .ok ⟨[2, 4, 3, -1, -1]⟩ ∧ exZeros.run denseOps = .panic := by decide +kernel
example : (exExpr.run sparseOps >>= fun r => .ok r.orderedTermIter) = .ok [(2, 4), (4, 3), (3, 2), (-1, 1), (-1, 0)] ∧
    (exZeros.run sparseOps >>= fun r => .ok r.orderedTermIter) = .ok [] := by decide +kernel
example : exExpr.at 2 = 73 ∧ (⟨[2, 4, 3, -1, -1]⟩ : Poly ℤ).eval 2 = 73 := by decide +kernel
/-- Hypotheses met: every step of the first is possible, the last of the second is not. -/
example : exExpr.Goes (fun _ => True) (fun P Q => ¬ (P = 0 ∧ Q = 0)) (fun P n => ¬ (P = 0 ∧ 2 ≤ n)) ∧
    ¬ exZeros.Goes (fun _ => True) (fun P Q => ¬ (P = 0 ∧ Q = 0)) (fun P n => ¬ (P = 0 ∧ 2 ≤ n)) := by
  refine ⟨by_contra fun h => ?_, fun h => ?_⟩
  · have := (C119_dense exExpr).2 h
    revert this; decide +kernel
  · obtain ⟨r, h1, -⟩ := (C119_dense exZeros).1 h
    have h2 : exZeros.run denseOps = .panic := by decide +kernel
    rw [h2] at h1; cases h1

/-! ## Machine integers -/

section
variable (t : IntTy)

theorem allIn_iff (l : List Int) : AllIn t l ↔ ∀ d, t.InRange ((descPoly l).coeff d) := inRange_descPoly t l

theorem fromVec_in {cs : List Int} (h : ∀ c ∈ cs, t.InRange c) : ∀ e ∈ (Sparse.fromVec cs).terms.entries, t.InRange e.2 := by
  refine (inRange_mapPoly t _).2 fun d => ?_
  have := (allIn_iff t cs).1 h d
  rwa [← C28_sparse_from_vec] at this

theorem shl_coeff {R : Type} [CommRing R] (P : R[X]) (k d : Nat) : (P * X ^ k).coeff d = if k ≤ d then P.coeff (d - k) else 0 :=
  coeff_mul_X_pow' P k d

theorem onlyPanics_ok {α : Type} {x y : Res α} (h : OnlyPanics x y) {r : α} (e : x = .ok r) : y = .ok r := by
  rw [← e]
  exact h (by rw [e]; simp)

/-- With overflow checks the operators of `Polynomial` compute exactly or panic. -/
theorem computes_dense_checked (hb : 1 ≤ t.bits) (h1 : t.InRange 1) :
    Computes (denseOpsM (.machine true t)) (fun (r : Poly Int) P => descPoly r.terms = P ∧ AllIn t r.terms) t.InRange
      (fun P => ∀ d, t.InRange (P.coeff d)) (MulFitsDown t) (fun P n => (P ≠ 0 ∨ n ≤ 1) ∧ PowFits (MulFitsDesc t) P n) := by
  refine ⟨?_, ?_, ?_, ?_, ?_, ?_, ?_, ?_⟩
  · exact fun cs h => ⟨C01_new_same_polynomial cs, AllIn.new t h⟩
  · rintro x _ ⟨rfl, hx⟩; exact C56_neg t x
  · rintro x _ y _ ⟨rfl, hx⟩ ⟨rfl, hy⟩
    obtain ⟨a, b⟩ := C56_add t x y hx hy
    exact ⟨fun h => (a h).1, fun h => (b h).1⟩
  · rintro x _ y _ ⟨rfl, hx⟩ ⟨rfl, hy⟩
    obtain ⟨a, b⟩ := C56_sub t x y hx
    exact ⟨fun h => by obtain ⟨r, h1, -, h2⟩ := a h; exact ⟨r, h1, h2⟩, fun h => (b h).1⟩
  · rintro x _ y _ ⟨rfl, hx⟩ ⟨rfl, hy⟩
    by_cases h0 : descPoly x.terms ≠ 0 ∨ descPoly y.terms ≠ 0
    · obtain ⟨a, b⟩ := C56_mul t x y h0
      exact ⟨fun h => (a h.2).1, fun h => (b fun h' => h ⟨h0, h'⟩).1⟩
    · refine ⟨fun h => absurd h.1 h0, fun _ => ?_⟩
      push Not at h0
      exact (C56_mul_zero_zero true t x y h0.1 h0.2).1
  · rintro x _ n ⟨rfl, hx⟩
    have hin : ∀ r, x.powM (.machine true t) n = .ok r → AllIn t r.terms := by
      intro r hr
      have h2 := onlyPanics_ok (C103_dense t hb x x 0 0 0 n 0 true (fun _ => none)).2.2.2.2.2.2.2.2.2.2.2.1 hr
      obtain ⟨a, b⟩ := C81_dense_pow t hb h1 x n hx
      by_cases hz : 2 ≤ n ∧ ∀ d, (2 : ℤ) ^ t.bits ∣ (descPoly x.terms ^ (n / 2)).coeff d
      · rw [a hz] at h2; cases h2
      · obtain ⟨s, h3, h4⟩ := b hz
        rw [h3] at h2; cases h2
        exact h4.1
    by_cases h0 : descPoly x.terms ≠ 0
    · obtain ⟨a, b⟩ := C80_dense_pow_exact t x n h0
      refine ⟨fun h => ?_, fun h => b fun h' => h ⟨.inl h0, h'⟩⟩
      obtain ⟨r, h2, h3⟩ := a h.2
      exact ⟨r, h2, h3, hin r h2⟩
    · obtain ⟨a, b⟩ := C81_dense_pow t hb h1 x n hx
      push Not at h0
      by_cases hn : n ≤ 1
      · refine ⟨fun _ => ?_, fun h => absurd ⟨.inr hn, powFits_small hn⟩ h⟩
        rcases C75_dense_pow t x n with h | ⟨r, h2, h3⟩
        · exfalso
          interval_cases n
          · rw [Poly.powM.eq_def] at h; simp at h
          · rw [Poly.powM.eq_def] at h; simp at h
        · exact ⟨r, h2, h3, hin r h2⟩
      · refine ⟨fun h => absurd h.1 (by simp [h0]; omega), fun _ => ?_⟩
        have h2 := a ⟨by omega, fun d => by rw [h0, zero_pow (by omega)]; simp⟩
        rcases C75_dense_pow t x n with h | ⟨r, h3, -⟩
        · exact h
        · have h4 := onlyPanics_ok (C103_dense t hb x x 0 0 0 n 0 true (fun _ => none)).2.2.2.2.2.2.2.2.2.2.2.1 h3
          rw [h2] at h4; cases h4
  · rintro x _ c - ⟨rfl, hx⟩
    obtain ⟨a, b⟩ := C56_mul_scalar t x c
    rw [mul_comm (C c)]
    exact ⟨fun h => (a h).1, fun h => (b h).1⟩
  · rintro x _ k ⟨rfl, hx⟩
    obtain ⟨r, h2, h3⟩ := (C14_dense_shl x k).1 (by omega)
    rw [Int.toNat_natCast] at h3
    refine .of_ok ⟨r, h2, h3, (allIn_iff t _).2 fun d => ?_⟩
    rw [h3, shl_coeff]
    split
    · exact (allIn_iff t _).1 hx _
    · exact (allIn_iff t []).1 (by simp [AllIn]) d

/-- C119: with overflow checks computing any expression with `Polynomial`s returns exactly when no step leaves the type (and neither two
zeros are multiplied nor zero is raised to a power from 2 on), and then the exact result; otherwise it panics. -/
theorem C119_dense_checked (hb : 1 ≤ t.bits) (h1 : t.InRange 1) (e : RExpr ℤ) (he : e.Numbers t.InRange) :
    (e.Goes (fun P => ∀ d, t.InRange (P.coeff d)) (MulFitsDown t) (fun P n => (P ≠ 0 ∨ n ≤ 1) ∧ PowFits (MulFitsDesc t) P n) →
      ∃ r, e.run (denseOpsM (.machine true t)) = .ok r ∧ descPoly r.terms = e.den ∧ ∀ c ∈ r.terms, t.InRange c) ∧
    (¬ e.Goes (fun P => ∀ d, t.InRange (P.coeff d)) (MulFitsDown t) (fun P n => (P ≠ 0 ∨ n ≤ 1) ∧ PowFits (MulFitsDesc t) P n) →
      e.run (denseOpsM (.machine true t)) = .panic) :=
  (computes_dense_checked t hb h1).run e he

/-- With overflow checks the operators of `SparsePolynomial` compute exactly or panic. -/
theorem computes_sparse_checked (hb : 1 ≤ t.bits) (h1 : t.InRange 1) :
    Computes (sparseOpsM (.machine true t)) (fun (r : Sparse Int) P => entriesPoly r.terms.entries = P ∧ ∀ c ∈ r.terms.entries, t.InRange c.2)
      t.InRange (fun P => ∀ d, t.InRange (P.coeff d)) (MulFitsUp t) (PowFits (MulFitsAsc t)) := by
  have fin : ∀ {r : Sparse Int} {P : ℤ[X]}, entriesPoly r.terms.entries = P → (∀ d, t.InRange (P.coeff d)) →
      entriesPoly r.terms.entries = P ∧ ∀ c ∈ r.terms.entries, t.InRange c.2 := by
    rintro r _ rfl h
    exact ⟨rfl, (inRange_mapPoly t _).2 h⟩
  refine ⟨?_, ?_, ?_, ?_, ?_, ?_, ?_, ?_⟩
  · exact fun cs h => ⟨C28_sparse_from_vec cs, fromVec_in t h⟩
  · rintro x _ ⟨rfl, hx⟩
    obtain ⟨a, b⟩ := C76_sparse_neg t x
    exact ⟨fun h => by obtain ⟨r, h1, h2⟩ := a h; exact ⟨r, h1, fin h2 h⟩, b⟩
  · rintro x _ y _ ⟨rfl, hx⟩ ⟨rfl, hy⟩
    obtain ⟨a, b⟩ := C76_sparse_add t x y hx hy
    exact ⟨fun h => by obtain ⟨r, s, h1, -, h2, -⟩ := a h; exact ⟨r, h1, fin h2 h⟩, fun h => (b h).1⟩
  · rintro x _ y _ ⟨rfl, hx⟩ ⟨rfl, hy⟩
    obtain ⟨a, b⟩ := C76_sparse_sub t x y hx
    exact ⟨fun h => by obtain ⟨r, h1, h2⟩ := a h; exact ⟨r, h1, fin h2 h⟩, b⟩
  · rintro x _ y _ ⟨rfl, hx⟩ ⟨rfl, hy⟩
    obtain ⟨a, b⟩ := C76_sparse_mul t x y
    refine ⟨fun h => ?_, b⟩
    obtain ⟨r, h2, h3⟩ := a h
    refine ⟨r, h2, fin h3 fun d => ?_⟩
    have := h.2 d d
    rwa [Finset.filter_true_of_mem (fun x hx => by have := Finset.mem_antidiagonal.1 hx; omega), ← coeff_mul] at this
  · rintro x _ n ⟨rfl, hx⟩
    obtain ⟨a, b⟩ := C80_sparse_pow_exact t x n
    refine ⟨fun h => ?_, b⟩
    obtain ⟨r, h2, h3⟩ := a h
    refine ⟨r, h2, h3, ?_⟩
    obtain ⟨s, h4, h5⟩ := C81_sparse_pow t hb h1 x n hx
    have h6 := onlyPanics_ok (C103_sparse t hb x x ⟨[]⟩ 0 0 0 n 0 true (fun _ => none)).2.2.2.2.2.2.2.2.2.2.1 h2
    rw [h4] at h6; cases h6
    exact h5.1
  · rintro x _ c - ⟨rfl, hx⟩
    obtain ⟨a, b⟩ := C76_sparse_mul_scalar t x c
    rw [mul_comm (C c)]
    exact ⟨fun h => by obtain ⟨r, s, h1, -, h2, -⟩ := a h; exact ⟨r, h1, fin h2 h⟩, fun h => (b h).1⟩
  · rintro x _ k ⟨rfl, hx⟩
    obtain ⟨r, h2, h3, -⟩ := (C15_sparse_shift_partial x k (by omega)).1
    have h3 := h3 (by omega)
    rw [Int.toNat_natCast] at h3
    refine .of_ok ⟨r, h2, fin h3 fun d => ?_⟩
    rw [shl_coeff]
    split
    · exact (inRange_mapPoly t _).1 hx _
    · exact (allIn_iff t []).1 (by simp [AllIn]) d

/-- C119: with overflow checks computing any expression with `SparsePolynomial`s returns exactly when no step leaves the type, and then the
exact result; otherwise it panics. -/
theorem C119_sparse_checked (hb : 1 ≤ t.bits) (h1 : t.InRange 1) (e : RExpr ℤ) (he : e.Numbers t.InRange) :
    (e.Goes (fun P => ∀ d, t.InRange (P.coeff d)) (MulFitsUp t) (PowFits (MulFitsAsc t)) →
      ∃ r, e.run (sparseOpsM (.machine true t)) = .ok r ∧ entriesPoly r.terms.entries = e.den ∧
        ∀ c ∈ r.terms.entries, t.InRange c.2) ∧
    (¬ e.Goes (fun P => ∀ d, t.InRange (P.coeff d)) (MulFitsUp t) (PowFits (MulFitsAsc t)) →
      e.run (sparseOpsM (.machine true t)) = .panic) :=
  (computes_sparse_checked t hb h1).run e he

/-- All coefficients are multiples of `2 ^ bits`: zero for the type. -/
def Vanishes (P : ℤ[X]) : Prop := ∀ d, (2 : ℤ) ^ t.bits ∣ P.coeff d

theorem vanishes_iff (P : ℤ[X]) : Vanishes t P ↔ red t P = 0 := by
  rw [← map_zero (red t), red_eq_iff]
  refine forall_congr' fun d => ?_
  rw [coeff_zero, wrap_eq_iff, Int.cast_zero, ZMod.intCast_zmod_eq_zero_iff_dvd]
  norm_cast

theorem IsWrapOf.zero_iff {r : Poly Int} {P : ℤ[X]} (h : IsWrapOf t r P) : descPoly r.terms = 0 ↔ Vanishes t P := by
  rw [vanishes_iff, ← map_zero (red t), red_eq_iff, Polynomial.ext_iff]
  refine forall_congr' fun d => ?_
  rw [h.2 d, coeff_zero]
  simp [IntTy.wrap_zero]

/-- Without overflow checks the operators of `Polynomial` reduce every coefficient, or panic at zero times zero. -/
theorem computes_dense_wrap (hb : 1 ≤ t.bits) (h1 : t.InRange 1) :
    Computes (denseOpsM (.machine false t)) (IsWrapOf t) t.InRange (fun _ => True) (fun P Q => ¬ (Vanishes t P ∧ Vanishes t Q))
      (fun P n => ¬ (2 ≤ n ∧ Vanishes t (P ^ (n / 2)))) := by
  refine ⟨?_, ?_, ?_, ?_, ?_, ?_, ?_, ?_⟩
  · intro cs h
    refine ⟨AllIn.new t h, fun d => ?_⟩
    show (descPoly (Poly.new cs).terms).coeff d = _
    rw [C01_new_same_polynomial, t.wrap_of_inRange hb _ ((allIn_iff t cs).1 h d)]
  · intro x P hx
    obtain ⟨r, h2, h3⟩ := (C57_linear t hb x x 0 hx.1 hx.1).1
    exact .of_ok ⟨r, h2, h3.congr t (by rw [map_neg, map_neg, hx.red_eq])⟩
  · intro x P y Q hx hy
    obtain ⟨r, h2, h3⟩ := (C57_linear t hb x y 0 hx.1 hy.1).2.1
    exact .of_ok ⟨r, h2, h3.congr t (by rw [map_add, map_add, hx.red_eq, hy.red_eq])⟩
  · intro x P y Q hx hy
    obtain ⟨r, h2, h3⟩ := (C57_linear t hb x y 0 hx.1 hy.1).2.2.2.1
    exact .of_ok ⟨r, h2, h3.congr t (by rw [map_sub, map_sub, hx.red_eq, hy.red_eq])⟩
  · intro x P y Q hx hy
    rw [← hx.zero_iff, ← hy.zero_iff]
    constructor
    · intro h
      obtain ⟨r, h2, h3⟩ := (C57_mul t hb x y (not_and_or.1 h)).1
      exact ⟨r, h2, h3.congr t (by rw [map_mul, map_mul, hx.red_eq, hy.red_eq])⟩
    · intro h
      rw [not_not] at h
      exact (C56_mul_zero_zero false t x y h.1 h.2).1
  · intro x P n hx
    obtain ⟨a, b⟩ := C81_dense_pow t hb h1 x n hx.1
    have e1 : Vanishes t (P ^ (n / 2)) ↔ Vanishes t (descPoly x.terms ^ (n / 2)) := by
      rw [vanishes_iff, vanishes_iff, map_pow, map_pow, hx.red_eq]
    rw [e1]
    refine ⟨fun h => ?_, fun h => a (not_not.1 h)⟩
    obtain ⟨r, h2, h3⟩ := b h
    exact ⟨r, h2, h3.congr t (by rw [map_pow, map_pow, hx.red_eq])⟩
  · intro x P c _ hx
    obtain ⟨r, h2, h3⟩ := (C57_linear t hb x x c hx.1 hx.1).2.2.2.2.2.1
    exact .of_ok ⟨r, h2, h3.congr t (by rw [mul_comm, map_mul, map_mul, hx.red_eq])⟩
  · intro x P k hx
    obtain ⟨r, h2, h3⟩ := (C14_dense_shl x k).1 (by omega)
    rw [Int.toNat_natCast] at h3
    refine .of_ok ⟨r, h2, (allIn_iff t _).2 fun d => ?_, fun d => ?_⟩
    · rw [h3, shl_coeff]
      split
      · exact (allIn_iff t _).1 hx.1 _
      · exact (allIn_iff t []).1 (by simp [AllIn]) d
    · rw [h3, shl_coeff, shl_coeff]
      split
      · exact hx.2 _
      · simp [IntTy.wrap_zero]

/-- C119: without overflow checks computing any expression with `Polynomial`s gives the exact result with every coefficient reduced to
the type once, unless somewhere two factors that are both zero for the type are multiplied, by the expression or inside a power; then it
panics. -/
theorem C119_dense_wrap (hb : 1 ≤ t.bits) (h1 : t.InRange 1) (e : RExpr ℤ) (he : e.Numbers t.InRange) :
    (e.Goes (fun _ => True) (fun P Q => ¬ (Vanishes t P ∧ Vanishes t Q)) (fun P n => ¬ (2 ≤ n ∧ Vanishes t (P ^ (n / 2)))) →
      ∃ r, e.run (denseOpsM (.machine false t)) = .ok r ∧ (∀ c ∈ r.terms, t.InRange c) ∧
        ∀ d, (descPoly r.terms).coeff d = t.wrap (e.den.coeff d)) ∧
    (¬ e.Goes (fun _ => True) (fun P Q => ¬ (Vanishes t P ∧ Vanishes t Q)) (fun P n => ¬ (2 ≤ n ∧ Vanishes t (P ^ (n / 2)))) →
      e.run (denseOpsM (.machine false t)) = .panic) :=
  (computes_dense_wrap t hb h1).run e he

/-- Without overflow checks the operators of `SparsePolynomial` reduce every coefficient. -/
theorem computes_sparse_wrap (hb : 1 ≤ t.bits) (h1 : t.InRange 1) :
    Computes (sparseOpsM (.machine false t)) (IsWrapOfS t) t.InRange (fun _ => True) (fun _ _ => True) (fun _ _ => True) := by
  refine ⟨?_, ?_, ?_, ?_, ?_, ?_, ?_, ?_⟩
  · intro cs h
    refine ⟨fromVec_in t h, fun d => ?_⟩
    show (entriesPoly (Sparse.fromVec cs).terms.entries).coeff d = _
    rw [C28_sparse_from_vec, t.wrap_of_inRange hb _ ((allIn_iff t cs).1 h d)]
  · intro x P hx
    obtain ⟨r, h2, h3⟩ := (C81_sparse_scalar t hb x 0).1
    exact .of_ok ⟨r, h2, h3.congr t (by rw [map_neg, map_neg, hx.red_eq])⟩
  · intro x P y Q hx hy
    obtain ⟨r, h2, h3⟩ := (C81_sparse_add_sub t hb x y ⟨[]⟩ 1 0 hx.1 hy.1 h1).1
    exact .of_ok ⟨r, h2, h3.congr t (by rw [map_add, map_add, hx.red_eq, hy.red_eq])⟩
  · intro x P y Q hx hy
    obtain ⟨r, h2, h3⟩ := (C81_sparse_add_sub t hb x y ⟨[]⟩ 1 0 hx.1 hy.1 h1).2.2.1
    exact .of_ok ⟨r, h2, h3.congr t (by rw [map_sub, map_sub, hx.red_eq, hy.red_eq])⟩
  · intro x P y Q hx hy
    obtain ⟨r, h2, h3⟩ := C81_sparse_mul t hb x y
    exact .of_ok ⟨r, h2, h3.congr t (by rw [map_mul, map_mul, hx.red_eq, hy.red_eq])⟩
  · intro x P n hx
    obtain ⟨r, h2, h3⟩ := C81_sparse_pow t hb h1 x n hx.1
    exact .of_ok ⟨r, h2, h3.congr t (by rw [map_pow, map_pow, hx.red_eq])⟩
  · intro x P c _ hx
    obtain ⟨r, h2, h3⟩ := (C81_sparse_scalar t hb x c).2.1
    exact .of_ok ⟨r, h2, h3.congr t (by rw [mul_comm, map_mul, map_mul, hx.red_eq])⟩
  · intro x P k hx
    obtain ⟨r, h2, h3, -⟩ := (C15_sparse_shift_partial x k (by omega)).1
    have h3 := h3 (by omega)
    rw [Int.toNat_natCast] at h3
    refine .of_ok ⟨r, h2, (inRange_mapPoly t _).2 fun d => ?_, fun d => ?_⟩
    · rw [h3, shl_coeff]
      split
      · exact (inRange_mapPoly t _).1 hx.1 _
      · exact (allIn_iff t []).1 (by simp [AllIn]) d
    · rw [h3, shl_coeff, shl_coeff]
      split
      · exact hx.2 _
      · simp [IntTy.wrap_zero]

/-- C119: without overflow checks computing any expression with `SparsePolynomial`s gives the exact result with every coefficient reduced
to the type once. -/
theorem C119_sparse_wrap (hb : 1 ≤ t.bits) (h1 : t.InRange 1) (e : RExpr ℤ) (he : e.Numbers t.InRange) :
    ∃ r, e.run (sparseOpsM (.machine false t)) = .ok r ∧ (∀ c ∈ r.terms.entries, t.InRange c.2) ∧
      ∀ d, (entriesPoly r.terms.entries).coeff d = t.wrap (e.den.coeff d) :=
  ((computes_sparse_wrap t hb h1).run e he).1 e.goes_true

theorem wrap_eval {P Q : ℤ[X]} (h : ∀ d, P.coeff d = t.wrap (Q.coeff d)) (x : ℤ) : t.wrap (P.eval x) = t.wrap (Q.eval x) := by
  have h4 : red t P = red t Q := by
    rw [red_eq_iff]; intro d; rw [h d, wrap_eq_iff, cast_wrap]
  have h5 := congrArg (fun P : (ZMod (2 ^ t.bits))[X] => P.eval (x : ZMod (2 ^ t.bits))) h4
  simp only [red, coe_mapRingHom] at h5
  rw [wrap_eq_iff]
  simpa [eval_intCast_map] using h5

/-- C119: without overflow checks, evaluating the result gives the expression on integers, reduced to the type once, with either type (for
the sparse type up to degrees below `2 ^ 32`). -/
theorem C119_values_wrap (hb : 1 ≤ t.bits) (h1 : t.InRange 1) (e : RExpr ℤ) (he : e.Numbers t.InRange) (x : ℤ) :
    (∀ r, e.run (denseOpsM (.machine false t)) = .ok r → r.evalM (.machine false t) x = .ok (t.wrap (e.at x))) ∧
    (∀ r, e.run (sparseOpsM (.machine false t)) = .ok r → (∀ c ∈ r.terms.entries, c.1 < 2 ^ 32) →
      r.evalM (.machine false t) x = .ok (t.wrap (e.at x))) := by
  rw [e.at_eq]
  constructor
  · intro r h
    obtain ⟨a, b⟩ := C119_dense_wrap t hb h1 e he
    by_cases hg : e.Goes (fun _ => True) (fun P Q => ¬ (Vanishes t P ∧ Vanishes t Q)) (fun P n => ¬ (2 ≤ n ∧ Vanishes t (P ^ (n / 2))))
    · obtain ⟨s, h2, h3, h4⟩ := a hg
      rw [h] at h2; cases h2
      rw [C57_eval t hb r x h3, wrap_eval t h4]
    · rw [b hg] at h; cases h
  · intro r h hd
    obtain ⟨s, h2, h3, h4⟩ := C119_sparse_wrap t hb h1 e he
    rw [h] at h2; cases h2
    rw [C81_sparse_eval t r x hd, wrap_eval t h4]

end

/-- Hypotheses met, `i8`: `(x + 1)^3 * (2x - 1) - x^3` fits; `(x + 50) * (2x + 1)` is `2x² + 101x + 50`; `(x + 50) * (3x + 1)`, with the
coefficient 151, panics with overflow checks and wraps to `3x² - 105x + 50` without. -/
example : exExpr.run (denseOpsM (.machine true ⟨true, 8⟩)) = .ok ⟨[2, 4, 3, -1, -1]⟩ ∧
    (RExpr.mul (.lit [1, 50]) (.lit [2, 1])).run (denseOpsM (.machine true ⟨true, 8⟩)) = .ok ⟨[2, 101, 50]⟩ ∧
    (RExpr.mul (.lit [1, 50]) (.lit [3, 1])).run (denseOpsM (.machine true ⟨true, 8⟩)) = .panic ∧
    (RExpr.mul (.lit [1, 50]) (.lit [3, 1])).run (denseOpsM (.machine false ⟨true, 8⟩)) = .ok ⟨[3, -105, 50]⟩ := by decide +kernel
/-- Zero for the type only: in `u8` `(16x)^2` is zero, and its square panics, with the sparse type it is zero. -/
example : (RExpr.pow (.lit [16, 0]) 2).run (denseOpsM (.machine false ⟨false, 8⟩)) = .ok ⟨[]⟩ ∧
    (RExpr.pow (.lit [16, 0]) 4).run (denseOpsM (.machine false ⟨false, 8⟩)) = .panic ∧
    ((RExpr.pow (.lit [16, 0]) 4).run (sparseOpsM (.machine false ⟨false, 8⟩)) >>= fun r => .ok r.orderedTermIter) = .ok [] := by
  decide +kernel
/-- An intermediate value leaves the type and comes back: `(100x + 100x) - 100x`. -/
example : (RExpr.sub (.add (.lit [100, 0]) (.lit [100, 0])) (.lit [100, 0])).run (denseOpsM (.machine true ⟨true, 8⟩)) = .panic ∧
    (RExpr.sub (.add (.lit [100, 0]) (.lit [100, 0])) (.lit [100, 0])).run (denseOpsM (.machine false ⟨true, 8⟩)) = .ok ⟨[100, 0]⟩ ∧
    ((RExpr.sub (.add (.lit [100, 0]) (.lit [100, 0])) (.lit [100, 0])).run (sparseOpsM (.machine true ⟨true, 8⟩)) >>=
      fun r => .ok r.orderedTermIter) = .panic ∧
    ((RExpr.sub (.add (.lit [100, 0]) (.lit [100, 0])) (.lit [100, 0])).run (sparseOpsM (.machine false ⟨true, 8⟩)) >>=
      fun r => .ok r.orderedTermIter) = .ok [(100, 1)] := by decide +kernel

/-! ## Fields -/

section
variable {N : Type} [Zero N] [NumZero N] [Sub N] [Mul N] [RDiv N]

theorem divModLoop_more {rhs : List N} {rf : N} {rd off : Nat} : ∀ {n m : Nat}, n ≤ m → ∀ {c : N} {d : Nat} {rem div : List N}
    {x : List N × List N}, Poly.divModLoop rhs rf rd off n c d rem div = .ok x → Poly.divModLoop rhs rf rd off m c d rem div = .ok x
  | 0, _, _, _, _, _, _, _, h => by simp [Poly.divModLoop] at h
  | n + 1, 0, hm, _, _, _, _, _, _ => by omega
  | n + 1, m + 1, hm, c, d, rem, div, x, h => by
    unfold Poly.divModLoop at h ⊢
    split at h
    · next hle =>
      rw [if_pos hle]
      obtain ⟨s, h1, h⟩ := Res.bind_eq_ok.1 h
      obtain ⟨r, h2, h⟩ := Res.bind_eq_ok.1 h
      obtain ⟨i, h3, h⟩ := Res.bind_eq_ok.1 h
      rw [h1, Res.ok_bind, h2, Res.ok_bind, h3, Res.ok_bind]
      split at h
      · next hi =>
        rw [if_pos hi]
        dsimp only at h ⊢
        cases hf : firstTerm r with
        | zeroTerm => rw [hf] at h; exact h
        | term c' d' => rw [hf] at h; exact divModLoop_more (by omega) h
      · cases h
    · next hle => rw [if_neg hle]; exact h

theorem remAssignLoop_more {rhs : List N} {rf : N} {rd : Nat} : ∀ {n m : Nat}, n ≤ m → ∀ {c : N} {d : Nat} {rem : List N}
    {x : List N}, Poly.remAssignLoop rhs rf rd n c d rem = .ok x → Poly.remAssignLoop rhs rf rd m c d rem = .ok x
  | 0, _, _, _, _, _, _, h => by simp [Poly.remAssignLoop] at h
  | n + 1, 0, hm, _, _, _, _, _ => by omega
  | n + 1, m + 1, hm, c, d, rem, x, h => by
    unfold Poly.remAssignLoop at h ⊢
    split at h
    · next hle =>
      rw [if_pos hle]
      obtain ⟨r, h2, h⟩ := Res.bind_eq_ok.1 h
      rw [h2, Res.ok_bind]
      cases hf : firstTerm r with
      | zeroTerm => rw [hf] at h; exact h
      | term c' d' =>
        rw [hf] at h
        obtain ⟨s, h3, h⟩ := Res.bind_eq_ok.1 h
        show (rdiv c' rf >>= fun scale => Poly.remAssignLoop rhs rf rd m scale d' r) = _
        rw [h3, Res.ok_bind]
        exact remAssignLoop_more (by omega) h
    · next hle => rw [if_neg hle]; exact h

theorem floorDiv_more {p b q : Poly N} {n m : Nat} (hm : n ≤ m) (h : p.floorDiv n b = .ok q) : p.floorDiv m b = .ok q := by
  unfold Poly.floorDiv Poly.divMod at h ⊢
  cases h1 : firstTerm b.terms with
  | zeroTerm => rw [h1] at h; cases h
  | term rf rd =>
    rw [h1] at h
    cases h2 : firstTerm p.terms with
    | zeroTerm => rw [h2] at h; exact h
    | term c d =>
      rw [h2] at h
      dsimp only at h ⊢
      split
      · next hd => rw [if_pos hd] at h; exact h
      · next hd =>
        rw [if_neg hd] at h
        obtain ⟨y, h3, h⟩ := Res.bind_eq_ok.1 h
        obtain ⟨x, h4, h5⟩ := Res.bind_eq_ok.1 h3
        rw [divModLoop_more hm h4, Res.ok_bind, h5, Res.ok_bind]
        exact h

theorem remAssign_more {p b q : Poly N} {n m : Nat} (hm : n ≤ m) (h : p.remAssign n b = .ok q) : p.remAssign m b = .ok q := by
  unfold Poly.remAssign at h ⊢
  cases h1 : firstTerm b.terms with
  | zeroTerm => rw [h1] at h; cases h
  | term rf rd =>
    rw [h1] at h
    cases h2 : firstTerm p.terms with
    | zeroTerm => rw [h2] at h; exact h
    | term c d =>
      rw [h2] at h
      dsimp only at h ⊢
      split
      · next hd => rw [if_pos hd] at h; exact h
      · next hd =>
        rw [if_neg hd] at h
        obtain ⟨y, h3, h⟩ := Res.bind_eq_ok.1 h
        obtain ⟨x, h4, h5⟩ := Res.bind_eq_ok.1 h
        rw [h3, Res.ok_bind, remAssignLoop_more hm h4, Res.ok_bind]
        exact h5

end

/-- Given enough iterations, the computation is possible exactly under `ok`, always with the same result, which represents `P`; otherwise
it panics. -/
def EventuallyIs {K : Type} [CommRing K] (ok : Prop) (P : K[X]) (f : Nat → Res (Poly K)) : Prop :=
  (ok → ∃ r, descPoly r.terms = P ∧ ∃ n, ∀ fuel, n ≤ fuel → f fuel = .ok r) ∧ (¬ ok → ∃ n, ∀ fuel, n ≤ fuel → f fuel = .panic)

section
variable {K : Type} [CommRing K]

theorem EventuallyIs.bind {ok ok' : Prop} {P Q : K[X]} {f : Nat → Res (Poly K)} {g : Nat → Poly K → Res (Poly K)} (h : EventuallyIs ok P f)
    (hg : ∀ r : Poly K, descPoly r.terms = P → EventuallyIs ok' Q fun fuel => g fuel r) :
    EventuallyIs (ok ∧ ok') Q fun fuel => f fuel >>= g fuel := by
  constructor
  · rintro ⟨h1, h2⟩
    obtain ⟨r, hr, n, hn⟩ := h.1 h1
    obtain ⟨s, hs, m, hm⟩ := (hg r hr).1 h2
    exact ⟨s, hs, max n m, fun fuel hf => by
        show f fuel >>= g fuel = _
        rw [hn fuel (by omega), Res.ok_bind]
        exact hm fuel (by omega)⟩
  · intro hno
    by_cases h1 : ok
    · obtain ⟨r, hr, n, hn⟩ := h.1 h1
      obtain ⟨m, hm⟩ := (hg r hr).2 fun h2 => hno ⟨h1, h2⟩
      exact ⟨max n m, fun fuel hf => by
        show f fuel >>= g fuel = _
        rw [hn fuel (by omega), Res.ok_bind]
        exact hm fuel (by omega)⟩
    · obtain ⟨n, hn⟩ := h.2 h1
      exact ⟨n, fun fuel hf => by show f fuel >>= g fuel = _; rw [hn fuel hf]; rfl⟩

theorem EventuallyIs.const {ok : Prop} {P : K[X]} {x : Res (Poly K)} (h : StepIs (fun r P => descPoly r.terms = P) ok P x) :
    EventuallyIs ok P fun _ => x :=
  ⟨fun h1 => by obtain ⟨r, h2, h3⟩ := h.1 h1; exact ⟨r, h3, 0, fun _ _ => h2⟩, fun h1 => ⟨0, fun _ _ => h.2 h1⟩⟩

theorem EventuallyIs.of_iff {P : K[X]} {f : Nat → Res (Poly K)} {a b : Prop} (h : EventuallyIs a P f) (e : a ↔ b) : EventuallyIs b P f := by
  rwa [← propext e]

end

section
variable {K : Type} [Field K] [NumZero K] [LawfulNumZero K] [RDiv K] [LawfulRDiv K] [FromUsizeCont K] [LawfulFromUsizeCont K]

theorem fexpr_run (hk : ∀ n, (tryFromCont n : Option K) ≠ none) : ∀ e : FExpr K, EventuallyIs e.Defined e.den fun fuel => e.run fuel
  | .lit cs => .const (.of_ok ⟨_, rfl, C01_new_same_polynomial cs⟩)
  | .neg a => ((fexpr_run hk a).bind (ok' := True) (g := fun _ x => .ok x.neg) (by
      rintro x hx; exact .const (.of_ok ⟨_, rfl, by rw [FExpr.den, ← hx]; exact (C10_dense_neg x).1⟩))).of_iff (and_iff_left trivial)
  | .add a b => ((fexpr_run hk a).bind fun x hx => (fexpr_run hk b).bind (ok' := True) (g := fun _ y => x.add y) (by
      rintro y hy; exact .const (.of_ok (by rw [FExpr.den, ← hx, ← hy]; exact C08_dense_add x y)))).of_iff
      (by simp only [and_true]; rfl)
  | .sub a b => ((fexpr_run hk a).bind fun x hx => (fexpr_run hk b).bind (ok' := True) (g := fun _ y => x.sub y) (by
      rintro y hy; exact .const (.of_ok (by rw [FExpr.den, ← hx, ← hy]; exact C09_dense_sub x y)))).of_iff
      (by simp only [and_true]; rfl)
  | .mul a b => (fexpr_run hk a).bind fun x hx => (fexpr_run hk b).bind (g := fun _ y => x.mul y) (by
      rintro y hy
      refine .const ?_
      rw [FExpr.den, ← hx, ← hy]
      obtain ⟨h1, h2⟩ := C58_dense_mul_outcome x y
      exact ⟨fun h => by obtain ⟨r, s, h3, -, h4, -⟩ := h2 h; exact ⟨r, h3, h4⟩, fun h => (h1 (not_not.1 h)).1⟩)
  | .pow a n => (fexpr_run hk a).bind (g := fun _ x => x.pow n) (by
      rintro x hx
      refine .const ?_
      rw [FExpr.den, ← hx]
      obtain ⟨h1, h2⟩ := C58_dense_pow_outcome x n
      exact ⟨h2, fun h => h1 (not_not.1 h)⟩)
  | .scale a c => ((fexpr_run hk a).bind (ok' := True) (g := fun _ x => .ok (x.mulScalar c)) (by
      rintro x hx; exact .const (.of_ok ⟨_, rfl, by rw [FExpr.den, ← hx]; exact C13_dense_mul_scalar x c⟩))).of_iff (and_iff_left trivial)
  | .shl a k => ((fexpr_run hk a).bind (ok' := True) (g := fun _ x => x.shl k) (by
      rintro x hx
      obtain ⟨r, h1, h2⟩ := (C14_dense_shl x k).1 (by omega)
      rw [Int.toNat_natCast] at h2
      exact .const (.of_ok ⟨r, h1, by rw [FExpr.den, ← hx]; exact h2⟩))).of_iff (and_iff_left trivial)
  | .deriv a => ((fexpr_run hk a).bind (ok' := True) (g := fun _ x => x.derivative) (by
      rintro x hx
      refine .const (.of_ok ?_)
      rw [FExpr.den, ← hx]
      rcases C16_dense_derivative x with h | h
      · exact absurd ((C16_dense_derivative_panics_iff x).1 h) (hk _)
      · exact h)).of_iff (and_iff_left trivial)
  | .quo a b => (fexpr_run hk a).bind fun x hx => (fexpr_run hk b).bind (g := fun fuel y => x.floorDiv fuel y) (by
      rintro y hy
      rw [FExpr.den, ← hx, ← hy]
      constructor
      · intro h
        obtain ⟨q, h1, h2⟩ := C20_dense_floor_div x y h _ le_rfl
        exact ⟨q, h2, _, fun fuel hf => floorDiv_more hf h1⟩
      · intro h
        exact ⟨0, fun fuel _ => (C24_dense_zero_divisor x y (not_not.1 h) fuel).2.1⟩)
  | .rem a b => (fexpr_run hk a).bind fun x hx => (fexpr_run hk b).bind (g := fun fuel y => x.remAssign fuel y) (by
      rintro y hy
      rw [FExpr.den, ← hx, ← hy]
      constructor
      · intro h
        obtain ⟨q, h1, h2⟩ := C23_dense_rem_assign x y h _ le_rfl
        exact ⟨q, h2, _, fun fuel hf => remAssign_more hf h1⟩
      · intro h
        exact ⟨0, fun fuel _ => (C24_dense_zero_divisor x y (not_not.1 h) fuel).2.2.2⟩)

/-- C119: over a field whose elements include the degrees, computing any expression with derivatives, quotients and remainders as
`Polynomial`s ends, with the polynomial it denotes, unless somewhere two zero polynomials are multiplied, zero is raised to a power from 2
on or a division by zero is made; then it panics. -/
theorem C119_field (hk : ∀ n, (tryFromCont n : Option K) ≠ none) (e : FExpr K) :
    (e.Defined → ∃ r, descPoly r.terms = e.den ∧ ∃ n, ∀ fuel, n ≤ fuel → e.run fuel = .ok r) ∧
    (¬ e.Defined → ∃ n, ∀ fuel, n ≤ fuel → e.run fuel = .panic) := fexpr_run hk e

end

/-- Hypotheses met: over the rationals, the derivative of `(x^3 - 1) / (2x - 2)` plus `x^3 % (x^2 - 2)`; and a division by `x - x`. -/
example : (FExpr.add (.deriv (.quo (.lit [1, 0, 0, -1]) (.lit [(2 : ℚ), -2]))) (.rem (.lit [1, 0, 0, 0]) (.lit [1, 0, -2]))).run 9 =
      .ok ⟨[3, 1 / 2]⟩ ∧
    (FExpr.quo (.lit [1, 0, 0, -1]) (.sub (.lit [(1 : ℚ), 0]) (.lit [1, 0]))).run 9 = .panic := by decide +kernel
example : ∀ n, (tryFromCont n : Option ℚ) ≠ none := fun n h => by cases h

end Rustnomial
