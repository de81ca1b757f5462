import Verif.Model.MachineBuild
import Verif.SpecBuild
import Verif.Props.MachineFixed
import Verif.Props.MachineSparse
import Verif.Props.Parse
import Verif.Props.Usize
import Verif.Props.Unsigned

/-!
# One term, and runs of terms, on a machine (lemmas for C102)
-/

open Polynomial

namespace Rustnomial

section
variable (t : IntTy) (w cap : Nat)

/-! ## One term -/

theorem alloc_chk (n : Nat) : Chk (n ≤ cap) ((Env.machine true t w cap).alloc n) () := by
  unfold Env.alloc
  exact ⟨fun h => if_pos h, fun h => if_neg h⟩

/-- The shared body of `add_term` and `try_sub_term`: pad, then change one coefficient. -/
theorem dense_step_chk (hcap : cap < 2 ^ w) (p : Poly Int) (d : Nat) (hp : p.terms.length ≤ cap) (f : Int → Res Int)
    (g : Int → Int) (P : Int → Prop) (hf : ∀ x, Chk (P x) (f x) (g x)) :
    Chk (d < cap ∧ P ((descPoly p.terms).coeff d))
      (do let need ← (Env.machine true t w cap).usz.add d 1
          let terms ← if p.terms.length < need then do
              let need ← (Env.machine true t w cap).usz.add d 1
              let addedZeros ← (Env.machine true t w cap).usz.sub need p.terms.length
              (Env.machine true t w cap).alloc (addedZeros + p.terms.length)
              Res.ok (List.replicate addedZeros 0 ++ p.terms)
            else Res.ok p.terms
          let i ← (Env.machine true t w cap).usz.sub terms.length d
          let index ← (Env.machine true t w cap).usz.sub i 1
          let terms ← modifyM f terms index
          Res.ok (⟨terms⟩ : Poly Int))
      ⟨let terms := if p.terms.length < d + 1 then List.replicate (d + 1 - p.terms.length) 0 ++ p.terms else p.terms
       terms.modify (terms.length - d - 1) g⟩ := by
  show Chk _ ((USz.mk w true).add d 1 >>= _) _
  by_cases hd : d + 1 < 2 ^ w
  · rw [USz.add_fits (u := ⟨w, true⟩) hd, Res.ok_bind]
    by_cases hl : p.terms.length < d + 1
    · rw [if_pos hl]
      have e1 : (Env.machine true t w cap).usz.add d 1 = .ok (d + 1) := USz.add_fits (u := ⟨w, true⟩) hd
      have e2 : (Env.machine true t w cap).usz.sub (d + 1) p.terms.length = .ok (d + 1 - p.terms.length) :=
        USz.sub_le (u := ⟨w, true⟩) hl.le
      rw [e1, Res.ok_bind, e2, Res.ok_bind]
      have hs : d + 1 - p.terms.length + p.terms.length = d + 1 := by omega
      rw [hs]
      by_cases hc : d + 1 ≤ cap
      · rw [(alloc_chk t w cap (d + 1)).1 hc, Res.ok_bind, Res.ok_bind]
        have hlen : (List.replicate (d + 1 - p.terms.length) 0 ++ p.terms : List Int).length = d + 1 := by simp; omega
        have e3 : (Env.machine true t w cap).usz.sub (d + 1) d = .ok 1 := by
          have := USz.sub_le (u := ⟨w, true⟩) (a := d + 1) (b := d) (by omega)
          rw [show d + 1 - d = 1 by omega] at this; exact this
        have e4 : (Env.machine true t w cap).usz.sub 1 1 = .ok 0 := USz.sub_le (u := ⟨w, true⟩) (a := 1) (b := 1) le_rfl
        dsimp only
        rw [hlen, e3, Res.ok_bind, e4, Res.ok_bind, if_pos hl, hlen, show d + 1 - d - 1 = 0 by omega]
        have h := (chk_modifyM hf (List.replicate (d + 1 - p.terms.length) 0 ++ p.terms) 0 (by omega)).map Poly.mk
        refine h.of_iff ?_
        have h0 : (List.replicate (d + 1 - p.terms.length) 0 ++ p.terms : List Int)[0]'(by omega) = 0 := by
          rw [List.getElem_append_left (by simp; omega)]; simp
        rw [h0, coeff_descPoly_of_le (by omega)]
        exact ⟨fun h => ⟨by omega, h⟩, fun h => h.2⟩
      · rw [(alloc_chk t w cap (d + 1)).2 hc]
        exact ⟨fun h => absurd h.1 (by omega), fun _ => rfl⟩
    · rw [if_neg hl, Res.ok_bind]
      have e3 : (Env.machine true t w cap).usz.sub p.terms.length d = .ok (p.terms.length - d) :=
        USz.sub_le (u := ⟨w, true⟩) (by omega)
      have e4 : (Env.machine true t w cap).usz.sub (p.terms.length - d) 1 = .ok (p.terms.length - d - 1) :=
        USz.sub_le (u := ⟨w, true⟩) (by omega)
      dsimp only
      rw [e3, Res.ok_bind, e4, Res.ok_bind, if_neg hl]
      have h := (chk_modifyM hf p.terms (p.terms.length - d - 1) (by omega)).map Poly.mk
      refine h.of_iff ?_
      rw [coeff_descPoly_of_lt (by omega)]
      rw [List.getD_eq_getElem _ _ (by omega)]
      exact ⟨fun h => ⟨by omega, h⟩, fun h => h.2⟩
  · refine ⟨fun h => absurd h.1 (by omega), fun _ => ?_⟩
    rw [USz.add_checked, if_neg hd]; rfl

theorem addTermE_chk (hcap : cap < 2 ^ w) (p : Poly Int) (c : Int) (d : Nat) (hp : p.terms.length ≤ cap) :
    Chk (d < cap ∧ t.InRange ((descPoly p.terms).coeff d + c)) (p.addTermE (.machine true t w cap) c d) (p.addTerm c d) :=
  dense_step_chk t w cap hcap p d hp _ (· + c) (fun x => t.InRange (x + c)) (fun x => chk_result t _)

theorem trySubTermE_chk (hs : t.signed = true) (hcap : cap < 2 ^ w) (p : Poly Int) (c : Int) (d : Nat)
    (hp : p.terms.length ≤ cap) :
    Chk (d < cap ∧ t.InRange ((descPoly p.terms).coeff d - c)) (p.trySubTermE (.machine true t w cap) c d)
      (p.trySubTerm c d) := by
  have h := (dense_step_chk t w cap hcap p d hp (fun x => (Env.machine true t w cap).ar.sub x c) (· - c)
    (fun x => t.InRange (x - c)) (fun x => chk_result t _)).map (fun q => (q, (Except.ok () : Except TryAddError Unit)))
  have e1 : p.trySubTerm c d = ((⟨(if p.terms.length < d + 1 then List.replicate (d + 1 - p.terms.length) 0 ++ p.terms
        else p.terms).modify ((if p.terms.length < d + 1 then List.replicate (d + 1 - p.terms.length) 0 ++ p.terms
        else p.terms).length - d - 1) (· - c)⟩ : Poly Int), Except.ok ()) := by
    unfold Poly.trySubTerm
    have : CanNegate.canNegate Int = true := rfl
    simp only [this, Bool.not_true, Bool.false_eq_true, if_false]
    split <;> simp_all
  rw [e1]
  convert h using 1
  unfold Poly.trySubTermE
  have hn : (Env.machine true t w cap).canNegate = true := hs
  simp only [hn, Bool.true_eq_false, and_false, if_false]
  cases (Env.machine true t w cap).usz.add d 1 with
  | panic => rfl
  | fuel => rfl
  | ok n =>
    simp only [Res.ok_bind]
    split <;> simp [bind_assoc]

/-- One kind of step on a machine with overflow checks: a term is refused as in the ideal model, and an accepted term
panics exactly when there is no room for its degree or the new coefficient is no value of the type. -/
structure StepM (S : Type) (repr : S → ℤ[X]) (σ : Int) (step : S → Int → Nat → S × Except TryAddError Unit)
    (stepM : S → Int → Nat → Res (S × Except TryAddError Unit)) where
  lim : Nat → Prop
  sized : S → Prop
  repr_ok : ∀ s c d s', step s c d = (s', .ok ()) → repr s' = repr s + C (σ * c) * X ^ d
  ok : ∀ s c d s', sized s → (∀ n, t.InRange ((repr s).coeff n)) → t.InRange c → step s c d = (s', .ok ()) →
    Chk (lim d ∧ t.InRange ((repr s).coeff d + σ * c)) (stepM s c d) (s', .ok ()) ∧ (lim d → sized s')
  err : ∀ s c d s' e, step s c d = (s', .error e) → stepM s c d = .ok (s', .error e)

/-- Steps one after the other, up to the first refused term. -/
def runS {S : Type} (step : S → Int → Nat → S × Except TryAddError Unit) :
    List (Int × Nat) → S → S × Except TryAddError Unit
  | [], s => (s, .ok ())
  | (c, d) :: ts, s =>
    match step s c d with
    | (s, .ok ()) => runS step ts s
    | (s, .error e) => (s, .error e)

/-- The same on a machine. -/
def runSM {S : Type} (stepM : S → Int → Nat → Res (S × Except TryAddError Unit)) :
    List (Int × Nat) → S → Res (S × Except TryAddError Unit)
  | [], s => .ok (s, .ok ())
  | (c, d) :: ts, s => do
    let (s, r) ← stepM s c d
    match r with
    | .ok () => runSM stepM ts s
    | .error e => .ok (s, .error e)

theorem addPoly_runS {S : Type} [MutPoly Int S] : ∀ (ts : List (Int × Nat)) (s : S),
    addPoly ts s = runS MutPoly.tryAddTerm ts s
  | [], s => rfl
  | (c, d) :: ts, s => by
    simp only [addPoly, runS]
    rcases MutPoly.tryAddTerm s c d with ⟨s', r⟩
    cases r with
    | ok u => exact addPoly_runS ts s'
    | error e => rfl

theorem subPoly_runS {S : Type} [MutPoly Int S] : ∀ (ts : List (Int × Nat)) (s : S),
    subPoly ts s = runS MutPoly.trySubTerm ts s
  | [], s => rfl
  | (c, d) :: ts, s => by
    simp only [subPoly, runS]
    rcases MutPoly.trySubTerm s c d with ⟨s', r⟩
    cases r with
    | ok u => exact subPoly_runS ts s'
    | error e => rfl

theorem addPolyM_runSM {S : Type} [MutPolyM S] (E : Env) : ∀ (ts : List (Int × Nat)) (s : S),
    addPolyM E ts s = runSM (MutPolyM.tryAddTermM E) ts s
  | [], s => rfl
  | (c, d) :: ts, s => by
    simp only [addPolyM, runSM]
    rcases MutPolyM.tryAddTermM E s c d with ⟨s', r⟩ | _ | _
    · cases r with
      | ok u => exact addPolyM_runSM E ts s'
      | error e => rfl
    · rfl
    · rfl

theorem subPolyM_runSM {S : Type} [MutPolyM S] (E : Env) : ∀ (ts : List (Int × Nat)) (s : S),
    subPolyM E ts s = runSM (MutPolyM.trySubTermM E) ts s
  | [], s => rfl
  | (c, d) :: ts, s => by
    simp only [subPolyM, runSM]
    rcases MutPolyM.trySubTermM E s c d with ⟨s', r⟩ | _ | _
    · cases r with
      | ok u => exact subPolyM_runSM E ts s'
      | error e => rfl
    · rfl
    · rfl

variable {t}

theorem fits_add {P : ℤ[X]} (hP : ∀ n, t.InRange (P.coeff n)) (c : Int) (d : Nat) :
    (∀ n, t.InRange ((P + C c * X ^ d).coeff n)) ↔ t.InRange (P.coeff d + c) := by
  constructor
  · intro h; have := h d; simpa using this
  · intro h n
    rw [coeff_add, coeff_C_mul, coeff_X_pow]
    split
    · rename_i e; rw [e]; simpa using h
    · simpa using hP n

variable {S : Type} {repr : S → ℤ[X]} {σ : Int} {step : S → Int → Nat → S × Except TryAddError Unit}
    {stepM : S → Int → Nat → Res (S × Except TryAddError Unit)}

/-- What a run needs: every prefix accepted by the ideal run has room and coefficients of the type. -/
def RunOk (H : StepM t S repr σ step stepM) (s : S) (ts : List (Int × Nat)) : Prop :=
  ∀ pre, pre <+: ts → ∀ s', runS step pre s = (s', .ok ()) →
    (∀ x ∈ pre, H.lim x.2) ∧ ∀ n, t.InRange ((repr s + C σ * termsPoly pre).coeff n)

theorem runOk_nil (H : StepM t S repr σ step stepM) {s : S} (hin : ∀ n, t.InRange ((repr s).coeff n)) :
    RunOk H s [] := by
  intro pre hpre s' _
  obtain rfl : pre = [] := by simpa using hpre
  simpa using hin

theorem runOk_cons_err (H : StepM t S repr σ step stepM) {s s' : S} {c : Int} {d : Nat} {e : TryAddError}
    (hin : ∀ n, t.InRange ((repr s).coeff n)) (h : step s c d = (s', .error e)) (ts : List (Int × Nat)) :
    RunOk H s ((c, d) :: ts) := by
  intro pre hpre s'' hr
  cases pre with
  | nil => simpa using hin
  | cons x pre =>
    obtain rfl : x = (c, d) := by simpa using (List.cons_prefix_cons.1 hpre).1
    simp [runS, h] at hr

theorem runOk_cons_ok (H : StepM t S repr σ step stepM) {s s' : S} {c : Int} {d : Nat}
    (hin : ∀ n, t.InRange ((repr s).coeff n)) (h : step s c d = (s', .ok ())) (ts : List (Int × Nat)) :
    RunOk H s ((c, d) :: ts) ↔ (H.lim d ∧ t.InRange ((repr s).coeff d + σ * c)) ∧ RunOk H s' ts := by
  have hrep := H.repr_ok _ _ _ _ h
  have key : ∀ pre, repr s + C σ * termsPoly ((c, d) :: pre) = repr s' + C σ * termsPoly pre := by
    intro pre
    rw [termsPoly_cons, hrep, C_mul]; ring
  constructor
  · intro R
    have h0 := R [(c, d)] (by simp) s' (by simp [runS, h])
    refine ⟨⟨h0.1 (c, d) (by simp), ?_⟩, ?_⟩
    · rw [← fits_add hin, ← hrep]
      have := h0.2
      rw [key] at this; simpa using this
    · intro pre hpre s'' hr
      have := R ((c, d) :: pre) (by simpa using hpre) s'' (by simpa [runS, h] using hr)
      rw [key] at this
      exact ⟨fun x hx => this.1 x (by simp [hx]), this.2⟩
  · rintro ⟨⟨hl, hc⟩, R⟩ pre hpre s'' hr
    cases pre with
    | nil => simpa using hin
    | cons x pre =>
      obtain ⟨rfl, hpre'⟩ := List.cons_prefix_cons.1 hpre
      simp only [runS, h] at hr
      obtain ⟨g1, g2⟩ := R pre hpre' s'' hr
      refine ⟨?_, by rw [key]; exact g2⟩
      intro x hx
      rcases List.mem_cons.1 hx with rfl | hx
      · exact hl
      · exact g1 x hx

theorem step_inRange (H : StepM t S repr σ step stepM) {s s' : S} {c : Int} {d : Nat}
    (hin : ∀ n, t.InRange ((repr s).coeff n)) (h : step s c d = (s', .ok ()))
    (hc : t.InRange ((repr s).coeff d + σ * c)) : ∀ n, t.InRange ((repr s').coeff n) := by
  rw [H.repr_ok _ _ _ _ h]; exact (fits_add hin _ d).2 hc

theorem runSM_chk (H : StepM t S repr σ step stepM) : ∀ (ts : List (Int × Nat)) (s : S), H.sized s →
    (∀ n, t.InRange ((repr s).coeff n)) → (∀ x ∈ ts, t.InRange x.1) →
    Chk (RunOk H s ts) (runSM stepM ts s) (runS step ts s)
  | [], s, _, hin, _ => (Chk.ok _).of_iff (by simp [runOk_nil H hin])
  | (c, d) :: ts, s, hsz, hin, hts => by
    cases h : step s c d with
    | mk s' r =>
      cases r with
      | error e =>
        simp only [runSM, runS, h, H.err s c d s' e h, Res.ok_bind]
        exact (Chk.ok _).of_iff (by simp [runOk_cons_err H hin h])
      | ok u =>
        obtain ⟨h1, h2⟩ := H.ok s c d s' hsz hin (hts (c, d) (by simp)) h
        simp only [runSM, runS, h]
        refine (h1.bind (Q := RunOk H s' ts) ?_).of_iff (runOk_cons_ok H hin h ts).symm
        rintro ⟨hl, hc⟩
        exact runSM_chk H ts s' (h2 hl) (step_inRange H hin h hc) (fun x hx => hts x (by simp [hx]))

/-! ## Products of terms -/

/-- Products of pairs of terms, added one after the other. -/
def runXM (E : Env) (stepM : S → Int → Nat → Res (S × Except TryAddError Unit)) :
    List ((Int × Nat) × (Int × Nat)) → S → Res (S × Except TryAddError Unit)
  | [], s => .ok (s, .ok ())
  | (a, b) :: ps, s => do
    let c ← E.ar.mul a.1 b.1
    let d ← E.usz.add a.2 b.2
    let (s, r) ← stepM s c d
    match r with
    | .ok () => runXM E stepM ps s
    | .error e => .ok (s, .error e)

theorem runXM_append (E : Env) : ∀ (ps qs : List ((Int × Nat) × (Int × Nat))) (s : S),
    runXM E stepM (ps ++ qs) s = (do
      let (s, r) ← runXM E stepM ps s
      match r with
      | .ok () => runXM E stepM qs s
      | .error e => .ok (s, .error e))
  | [], qs, s => rfl
  | (a, b) :: ps, qs, s => by
    simp only [List.cons_append, runXM, bind_assoc]
    congr 1; funext c
    congr 1; funext d
    congr 1; funext r
    obtain ⟨s', r⟩ := r
    cases r with
    | ok u => exact runXM_append E ps qs s'
    | error e => rfl

theorem mulPolyVecM_runXM [MutPolyM S] (E : Env) : ∀ (rhs lhs : List (Int × Nat)) (s : S),
    mulPolyVecM E rhs lhs s = runXM E (MutPolyM.tryAddTermM E) (rhs.flatMap fun r => lhs.map fun l => (r, l)) s
  | [], lhs, s => rfl
  | (rc, rd) :: rhs, lhs, s => by
    have inner : ∀ (lhs : List (Int × Nat)) (s : S), mulPolyVecInnerM E rc rd lhs s =
        runXM E (MutPolyM.tryAddTermM E) (lhs.map fun l => ((rc, rd), l)) s := by
      intro lhs
      induction lhs with
      | nil => intro s; rfl
      | cons l lhs ih =>
        intro s
        obtain ⟨lc, ld⟩ := l
        simp only [mulPolyVecInnerM, List.map_cons, runXM]
        congr 1; funext c
        congr 1; funext d
        congr 1; funext r
        obtain ⟨s', r⟩ := r
        cases r with
        | ok u => exact ih s'
        | error e => rfl
    rw [List.flatMap_cons, runXM_append, mulPolyVecM, inner]
    congr 1; funext r
    obtain ⟨s', r⟩ := r
    cases r with
    | ok u => exact mulPolyVecM_runXM E rhs lhs s'
    | error e => rfl

theorem runXM_chk (H : StepM t S repr σ step stepM) (htot : ∀ s c d, ∃ s', step s c d = (s', .ok ())) :
    ∀ (ps : List ((Int × Nat) × (Int × Nat))) (s : S), H.sized s → (∀ n, t.InRange ((repr s).coeff n)) →
    Chk ((∀ p ∈ ps, t.InRange (p.1.1 * p.2.1) ∧ p.1.2 + p.2.2 < 2 ^ w) ∧
        RunOk H s (ps.map fun p => (p.1.1 * p.2.1, p.1.2 + p.2.2)))
      (runXM (.machine true t w cap) stepM ps s)
      (runS step (ps.map fun p => (p.1.1 * p.2.1, p.1.2 + p.2.2)) s)
  | [], s, _, hin => (Chk.ok _).of_iff (by simp [runOk_nil H hin])
  | (a, b) :: ps, s, hsz, hin => by
    obtain ⟨s', h⟩ := htot s (a.1 * b.1) (a.2 + b.2)
    have hadd : Chk (a.2 + b.2 < 2 ^ w) ((Env.machine true t w cap).usz.add a.2 b.2) (a.2 + b.2) :=
      ⟨fun h => USz.add_fits (u := ⟨w, true⟩) h, fun h => by
        show (USz.mk w true).add a.2 b.2 = .panic
        simp [USz.add, USz.result, h]⟩
    have hmul : Chk (t.InRange (a.1 * b.1)) ((Env.machine true t w cap).ar.mul a.1 b.1) (a.1 * b.1) := chk_result t _
    simp only [runXM, List.map_cons, runS, h]
    refine (hmul.bind (Q := a.2 + b.2 < 2 ^ w ∧ (H.lim (a.2 + b.2) ∧ t.InRange ((repr s).coeff (a.2 + b.2) + σ * (a.1 * b.1))) ∧
      (∀ p ∈ ps, t.InRange (p.1.1 * p.2.1) ∧ p.1.2 + p.2.2 < 2 ^ w) ∧
        RunOk H s' (ps.map fun p => (p.1.1 * p.2.1, p.1.2 + p.2.2))) fun hm => ?_).of_iff ?_
    · refine hadd.bind fun _ => ?_
      obtain ⟨h1, h2⟩ := H.ok s _ _ s' hsz hin hm h
      refine h1.bind ?_
      rintro ⟨hl, hc⟩
      exact runXM_chk H htot ps s' (h2 hl) (step_inRange H hin h hc)
    · rw [runOk_cons_ok H hin h]
      simp only [List.forall_mem_cons]
      tauto

/-! ## Texts -/

/-- Processing the tokens one after the other on a machine. -/
def parseListM [MutPolyM S] (E : Env) (parse : List Char → Option Int) :
    List (List Char) → S → Bool → Res (Except PolynomialFromStringError S)
  | [], p, b => .ok (if b then .ok p else .error .noTermsFound)
  | t :: ts, p, _ =>
    match Term.fromStr parse E.usz.bits t with
    | .error e => .ok (.error (.termFromString e))
    | .ok .zeroTerm => parseListM E parse ts p true
    | .ok (.term c d) => do
      let (p, r) ← MutPolyM.tryAddTermM E p c d
      match r with
      | .error e => .ok (.error (.addingTerm e))
      | .ok () => parseListM E parse ts p true

theorem fromStrLoopM_yields [MutPolyM S] (E : Env) (parse : List Char → Option Int) {s : List Char} {tok : Tokenizer}
    {rs : List (Nat × Nat)} {ts : List (List Char)} (h : Yields s tok rs ts) :
    ∀ (f : Nat) (p : S) (b : Bool), rs.length < f →
      fromStrLoopM E parse s f tok p b = parseListM E parse ts p b := by
  induction h with
  | nil tok tok' h =>
    intro f p b hf
    obtain ⟨f, rfl⟩ : ∃ g, f = g + 1 := ⟨f - 1, by omega⟩
    rw [fromStrLoopM, h]
    simp only [parseListM]
    cases b <;> rfl
  | cons tok tok' a b t rs ts h hs hr ih =>
    intro f p bb hf
    obtain ⟨f, rfl⟩ : ∃ g, f = g + 1 := ⟨f - 1, by omega⟩
    rw [fromStrLoopM, h]
    simp only
    rw [hs, Res.ok_bind, parseListM]
    cases hT : Term.fromStr parse E.usz.bits t with
    | error e => rfl
    | ok T =>
      cases T with
      | zeroTerm => exact ih f p true (by simpa using hf)
      | term c d =>
        simp only
        congr 1; funext r
        obtain ⟨p', r⟩ := r
        cases r with
        | error e => rfl
        | ok u => exact ih f p' true (by simpa using hf)

theorem polyFromStrM_eq [MutPolyM S] (E : Env) (zero : S) (parse : List Char → Option Int) (s : List Char)
    (ts : List (List Char)) (h : IsTokenization s ts) :
    polyFromStrM E zero parse s = parseListM E parse ts zero false := by
  have hl := length_le_of_ne_nil h.ne_nil
  rw [h.1] at hl
  exact fromStrLoopM_yields E parse (yields_new s ts h) _ _ _ (by rw [rangesOf_length]; omega)

theorem parseInt_inRange {s : List Char} {v : Int} (h : parseInt t s = some v) : t.InRange v := by
  have key : ∀ {n : Int} {o : Option Nat} {g : Nat → Int}, (o.bind fun n => fitsInt t (g n)) = some n → t.InRange n := by
    intro n o g h
    cases o with
    | none => simp at h
    | some m =>
      simp only [Option.bind_some, fitsInt] at h
      split at h
      · rename_i hr; rw [← Option.some.inj h]; exact hr
      · simp at h
  unfold parseInt at h
  split at h
  · exact key h
  · split at h
    · exact key (g := fun n => -(n : Int)) h
    · simp at h
  · exact key h

theorem fromStr_inRange (h1 : t.InRange 1) {uw : Nat} {s : List Char} {c : Int} {d : Nat}
    (h : Term.fromStr (parseInt t) uw s = .ok (.term c d)) : t.InRange c := by
  have hnew : ∀ {v : Int} {e : Nat}, Term.term c d = Term.new v e → t.InRange v → t.InRange c := by
    intro v e h hv
    unfold Term.new at h
    split at h
    · cases h
    · cases h; exact hv
  have hc : ∀ {num : List Char} {v : Int}, coeffText (parseInt t) num = some v → t.InRange v := by
    intro num v h
    unfold coeffText at h
    split at h
    · rw [← Option.some.inj h]; exact h1
    · split at h <;> exact parseInt_inRange h
  rcases (C36_accept_iff (parseInt t) uw s _).1 h with ⟨v, _, hv, hT⟩ | ⟨num, v, _, hv, ⟨_, hT⟩ | ⟨_, _, _, _, _, _, _, hT⟩⟩
  · exact hnew hT (parseInt_inRange hv)
  · exact hnew hT (hc hv)
  · exact hnew hT (hc hv)

/-- The coefficient and degree of the non-zero terms. -/
def pairsOf : List (Term Int) → List (Int × Nat)
  | [] => []
  | .zeroTerm :: ts => pairsOf ts
  | .term c d :: ts => (c, d) :: pairsOf ts

theorem termsPoly_pairsOf : ∀ ts : List (Term Int), termsPoly (pairsOf ts) = (ts.map Term.poly).sum
  | [] => rfl
  | .zeroTerm :: ts => by simp [pairsOf, Term.poly, termsPoly_pairsOf ts]
  | .term c d :: ts => by simp [pairsOf, Term.poly, termsPoly_cons, termsPoly_pairsOf ts]

theorem mem_pairsOf {c : Int} {d : Nat} : ∀ {ts : List (Term Int)}, (c, d) ∈ pairsOf ts ↔ Term.term c d ∈ ts
  | [] => by simp [pairsOf]
  | .zeroTerm :: ts => by simp [pairsOf, mem_pairsOf (ts := ts)]
  | .term c' d' :: ts => by simp [pairsOf, mem_pairsOf (ts := ts)]

/-- What a text needs from `s` on. -/
def TextOk (H : StepM t S repr 1 step stepM) (uw : Nat) (s : S) (ts : List (List Char)) : Prop :=
  ∀ pre, pre <+: ts → ∀ terms : List (Term Int), pre.map (Term.fromStr (parseInt t) uw) = terms.map .ok →
    ∀ s', runS step (pairsOf terms) s = (s', .ok ()) →
    (∀ x ∈ pairsOf terms, H.lim x.2) ∧ ∀ n, t.InRange ((repr s + termsPoly (pairsOf terms)).coeff n)

theorem parseListM_chk [MutPoly Int S] [MutPolyM S]
    (H : StepM t S repr 1 MutPoly.tryAddTerm (MutPolyM.tryAddTermM (.machine true t w cap))) (h1 : t.InRange 1) :
    ∀ (ts : List (List Char)) (s : S) (b : Bool), H.sized s → (∀ n, t.InRange ((repr s).coeff n)) →
    Chk (TextOk H w s ts) (parseListM (.machine true t w cap) (parseInt t) ts s b) (parseList (parseInt t) w ts s b)
  | [], s, b, _, hin => (Chk.ok _).of_iff (by
      simp only [true_iff]
      intro pre hpre terms hterms s' _
      obtain rfl : pre = [] := by simpa using hpre
      obtain rfl : terms = [] := by simpa using hterms.symm
      simpa [pairsOf] using hin)
  | tk :: ts, s, b, hsz, hin => by
    have nil_ok : ∀ s', runS MutPoly.tryAddTerm (pairsOf ([] : List (Term Int))) s = (s', .ok ()) →
        (∀ x ∈ pairsOf ([] : List (Term Int)), H.lim x.2) ∧
          ∀ n, t.InRange ((repr s + termsPoly (pairsOf ([] : List (Term Int)))).coeff n) := by
      intro s' _; simpa [pairsOf] using hin
    rw [parseListM, parseList]
    have hb : (Env.machine true t w cap).usz.bits = w := rfl
    rw [hb]
    cases hT : Term.fromStr (parseInt t) w tk with
    | error e =>
      refine (Chk.ok _).of_iff ?_
      simp only [true_iff]
      intro pre hpre terms hterms s' hs'
      cases pre with
      | nil =>
        obtain rfl : terms = [] := by simpa using hterms.symm
        exact nil_ok s' hs'
      | cons x pre =>
        obtain ⟨rfl, _⟩ := List.cons_prefix_cons.1 hpre
        cases terms <;> simp [hT] at hterms
    | ok T =>
      have hcons : ∀ Q, (TextOk H w s (tk :: ts) ↔ Q) ↔ ((∀ pre, pre <+: ts → ∀ terms : List (Term Int),
          pre.map (Term.fromStr (parseInt t) w) = terms.map .ok →
          ∀ s', runS MutPoly.tryAddTerm (pairsOf (T :: terms)) s = (s', .ok ()) →
          (∀ x ∈ pairsOf (T :: terms), H.lim x.2) ∧
            ∀ n, t.InRange ((repr s + termsPoly (pairsOf (T :: terms))).coeff n)) ↔ Q) := by
        intro Q
        have : TextOk H w s (tk :: ts) ↔ (∀ pre, pre <+: ts → ∀ terms : List (Term Int),
          pre.map (Term.fromStr (parseInt t) w) = terms.map .ok →
          ∀ s', runS MutPoly.tryAddTerm (pairsOf (T :: terms)) s = (s', .ok ()) →
          (∀ x ∈ pairsOf (T :: terms), H.lim x.2) ∧
            ∀ n, t.InRange ((repr s + termsPoly (pairsOf (T :: terms))).coeff n)) := by
          constructor
          · intro R pre hpre terms hterms
            exact R (tk :: pre) (by simpa using hpre) (T :: terms) (by simp [hT, hterms])
          · intro R pre hpre terms hterms
            cases pre with
            | nil =>
              obtain rfl : terms = [] := by simpa using hterms.symm
              exact nil_ok
            | cons x pre =>
              obtain ⟨rfl, hpre'⟩ := List.cons_prefix_cons.1 hpre
              cases terms with
              | nil => simp at hterms
              | cons T' terms =>
                simp only [List.map_cons, List.cons.injEq, hT, Except.ok.injEq] at hterms
                obtain ⟨rfl, ht⟩ := hterms
                exact R pre hpre' terms ht
        rw [this]
      cases T with
      | zeroTerm =>
        refine (parseListM_chk H h1 ts s true hsz hin).of_iff ?_
        rw [Iff.comm, hcons]; rfl
      | term c d =>
        simp only
        cases h : MutPoly.tryAddTerm s c d with
        | mk s' r =>
          cases r with
          | error e =>
            simp only [H.err s c d s' e h, Res.ok_bind]
            refine (Chk.ok _).of_iff ?_
            rw [Iff.comm, hcons]
            simp only [iff_true]
            intro pre hpre terms hterms s'' hs''
            simp [pairsOf, runS, h] at hs''
          | ok u =>
            obtain ⟨g1, g2⟩ := H.ok s c d s' hsz hin (fromStr_inRange h1 hT) h
            refine (g1.bind (Q := TextOk H w s' ts) ?_).of_iff ?_
            · rintro ⟨hl, hc⟩
              exact parseListM_chk H h1 ts s' true (g2 hl) (step_inRange H hin h hc)
            · rw [Iff.comm, hcons]
              have hrep := H.repr_ok _ _ _ _ h
              rw [one_mul] at hrep
              have key : ∀ l, repr s + termsPoly ((c, d) :: l) = repr s' + termsPoly l := by
                intro l; rw [termsPoly_cons, hrep]; ring
              simp only [pairsOf, runS, h, List.forall_mem_cons, key]
              constructor
              · intro R
                have h0 := R [] (by simp) [] rfl s' rfl
                refine ⟨⟨h0.1.1, ?_⟩, fun pre hpre terms hterms s'' hs'' => ?_⟩
                · rw [one_mul, ← fits_add hin, ← hrep]
                  simpa [pairsOf] using h0.2
                · have := R pre hpre terms hterms s'' hs''
                  exact ⟨this.1.2, this.2⟩
              · rintro ⟨⟨hl, hc⟩, R⟩ pre hpre terms hterms s'' hs''
                have := R pre hpre terms hterms s'' hs''
                exact ⟨⟨hl, this.1⟩, this.2⟩

/-! ## The steps of the types -/

theorem length_addTerm_le {p : Poly Int} {c : Int} {d : Nat} (hp : p.terms.length ≤ cap) (hd : d < cap) :
    (p.addTerm c d).terms.length ≤ cap := by
  unfold Poly.addTerm
  split <;> simp only [List.length_modify, List.length_append, List.length_replicate] <;> omega

theorem length_trySubTerm_le {p : Poly Int} {c : Int} {d : Nat} (hp : p.terms.length ≤ cap) (hd : d < cap) :
    (p.trySubTerm c d).1.terms.length ≤ cap := by
  unfold Poly.trySubTerm
  split
  · split
    · exact hp
    · simp; omega
  · simpa using hp

variable {cap w}

/-- `try_add_term` of a dense polynomial. -/
def denseAddStep (hcap : cap < 2 ^ w) : StepM t (Poly Int) (fun p => descPoly p.terms) 1 MutPoly.tryAddTerm
    (MutPolyM.tryAddTermM (.machine true t w cap)) where
  lim d := d < cap
  sized p := p.terms.length ≤ cap
  repr_ok s c d s' h := by
    have := LawfulMutPoly.add_ok _ _ _ _ h
    rw [one_mul]; exact this
  ok s c d s' hsz hin hc h := by
    have e : s' = s.addTerm c d := by
      have : MutPoly.tryAddTerm s c d = (s.addTerm c d, .ok ()) := rfl
      rw [this] at h; exact (Prod.mk.inj h).1.symm
    refine ⟨?_, fun hd => by rw [e]; exact length_addTerm_le cap hsz hd⟩
    have := (addTermE_chk t w cap hcap s c d hsz).map (fun q => (q, (Except.ok () : Except TryAddError Unit)))
    rw [e, one_mul]
    exact this
  err s c d s' e h := by
    have : MutPoly.tryAddTerm s c d = (s.addTerm c d, .ok ()) := rfl
    rw [this] at h; simp at h

/-- `try_sub_term` of a dense polynomial over a signed type. -/
def denseSubStep (hs : t.signed = true) (hcap : cap < 2 ^ w) : StepM t (Poly Int) (fun p => descPoly p.terms) (-1)
    MutPoly.trySubTerm (MutPolyM.trySubTermM (.machine true t w cap)) where
  lim d := d < cap
  sized p := p.terms.length ≤ cap
  repr_ok s c d s' h := by
    have := LawfulMutPoly.sub_ok _ _ _ _ h
    rw [neg_one_mul, C_neg, neg_mul, ← sub_eq_add_neg]
    exact this
  ok s c d s' hsz hin hc h := by
    have h' : s.trySubTerm c d = (s', .ok ()) := h
    have e : s' = (s.trySubTerm c d).1 := by rw [h']
    refine ⟨?_, fun hd => by rw [e]; exact length_trySubTerm_le cap hsz hd⟩
    have := trySubTermE_chk t w cap hs hcap s c d hsz
    rw [h'] at this
    rw [neg_one_mul, ← sub_eq_add_neg]
    exact this
  err s c d s' e h := by
    obtain ⟨r, hr, _⟩ := (C29_dense s c d).2.1 (.inl rfl)
    have h' : s.trySubTerm c d = (s', .error e) := h
    rw [hr] at h'; simp at h'

/-- `try_add_term` of a sparse polynomial: no room is needed for the terms in between. -/
def sparseAddStep : StepM t (Sparse Int) (fun p => entriesPoly p.terms.entries) 1 MutPoly.tryAddTerm
    (MutPolyM.tryAddTermM (.machine true t w cap)) where
  lim _ := True
  sized _ := True
  repr_ok s c d s' h := by
    have := LawfulMutPoly.add_ok _ _ _ _ h
    rw [one_mul]; exact this
  ok s c d s' _ hin hc h := by
    have e : s' = s.addTerm c d := by
      have : MutPoly.tryAddTerm s c d = (s.addTerm c d, .ok ()) := rfl
      rw [this] at h; exact (Prod.mk.inj h).1.symm
    refine ⟨?_, fun _ => trivial⟩
    have key : Chk (t.InRange ((entriesPoly s.terms.entries).coeff d + c)) (s.addTermM (.machine true t) c d)
        (s.addTerm c d) := by
      unfold Sparse.addTermM Sparse.addTerm
      by_cases h0 : c = 0
      · rw [if_pos h0, if_pos (by simpa using h0)]
        refine (Chk.ok _).of_iff ?_
        simp only [true_iff]
        rw [h0, add_zero]; exact hin d
      · rw [if_neg h0, if_neg (by simpa using h0)]
        refine ((chk_upsertM (m := s.terms) (k := d) (v := .ok c) (w := c)
          (f := fun x => (Arith.machine true t).add x c) (g := fun x => x + c) (Pv := True)
          (Pf := fun x => t.InRange (x + c)) (Chk.ok _) (fun x => chk_result t _)).map Sparse.mk).of_iff ?_
        rw [coeff_mapPoly]
        cases s.terms.get d with
        | none => simp [hc]
        | some v => rfl
    have := key.map (fun q => (q, (Except.ok () : Except TryAddError Unit)))
    simp only [true_and, one_mul]
    rw [e]
    exact this
  err s c d s' e h := by
    have : MutPoly.tryAddTerm s c d = (s.addTerm c d, .ok ()) := rfl
    rw [this] at h; simp at h

/-- `try_sub_term` of a sparse polynomial over a signed type. -/
def sparseSubStep (hs : t.signed = true) : StepM t (Sparse Int) (fun p => entriesPoly p.terms.entries) (-1)
    MutPoly.trySubTerm (MutPolyM.trySubTermM (.machine true t w cap)) where
  lim _ := True
  sized _ := True
  repr_ok s c d s' h := by
    have := LawfulMutPoly.sub_ok _ _ _ _ h
    rw [neg_one_mul, C_neg, neg_mul, ← sub_eq_add_neg]
    exact this
  ok s c d s' _ hin hc h := by
    refine ⟨?_, fun _ => trivial⟩
    have h' : s.trySubTerm c d = (s', .ok ()) := h
    show Chk _ (s.trySubTermM (.machine true t) t.canNegate c d) _
    have hn : t.canNegate = true := hs
    have hi : CanNegate.canNegate Int = true := rfl
    rw [← h', neg_one_mul, ← sub_eq_add_neg, hn]
    simp only [true_and]
    unfold Sparse.trySubTermM Sparse.trySubTerm
    by_cases h0 : c = 0
    · rw [if_pos h0, if_pos (by simpa using h0)]
      refine (Chk.ok _).of_iff ?_
      simp only [true_iff]
      rw [h0, sub_zero]; exact hin d
    · have hz : ¬ @isZero Int ⟨0⟩ _ c = true := by simpa using h0
      rw [if_neg h0, coeff_mapPoly]
      simp only [if_neg hz]
      cases s.terms.get d with
      | none =>
        simp only [hi, Bool.not_true, Bool.false_eq_true, if_false]
        exact (chk_result t (0 - c)).map
          (fun v => ((⟨s.terms.insert d v⟩ : Sparse Int), (Except.ok () : Except TryAddError Unit)))
      | some v =>
        exact (chk_result t (v - c)).map
          (fun v => ((⟨s.terms.insert d v⟩ : Sparse Int), (Except.ok () : Except TryAddError Unit)))
  err s c d s' e h := by
    have h' : s.trySubTerm c d = (s', .error e) := h
    unfold Sparse.trySubTerm at h'
    have hi : CanNegate.canNegate Int = true := rfl
    simp only [hi, Bool.not_true, Bool.false_eq_true, if_false] at h'
    split at h'
    · simp at h'
    · split at h' <;> simp at h'

theorem monomial_isZeroPoly {m : Monomial Int} : m.isZeroPoly = true ↔ m.coefficient = 0 := by
  unfold Monomial.isZeroPoly Monomial.degree
  by_cases h : m.coefficient = 0
  · rw [if_pos (by simpa using h)]; simp [h, Degree.isZeroPoly]
  · rw [if_neg (by simpa using h)]; simp [h, Degree.isZeroPoly]

/-- `try_add_term` of a monomial. -/
def monomialAddStep : StepM t (Monomial Int) Monomial.poly 1 MutPoly.tryAddTerm
    (MutPolyM.tryAddTermM (.machine true t w cap)) where
  lim _ := True
  sized _ := True
  repr_ok s c d s' h := by
    have := LawfulMutPoly.add_ok _ _ _ _ h
    rw [one_mul]; exact this
  ok s c d s' _ hin hc h := by
    refine ⟨?_, fun _ => trivial⟩
    have h' : s.tryAddTerm c d = (s', .ok ()) := h
    show Chk _ (s.tryAddTermM (.machine true t) c d) _
    rw [← h', one_mul]
    simp only [true_and]
    unfold Monomial.tryAddTerm at h'
    unfold Monomial.tryAddTermM Monomial.tryAddTerm
    by_cases h0 : s.coefficient = 0
    · rw [if_pos (monomial_isZeroPoly.2 h0), if_pos (monomial_isZeroPoly.2 h0)]
      refine ((chk_result t (s.coefficient + c)).map
        (fun v => ((⟨v, d⟩ : Monomial Int), (Except.ok () : Except TryAddError Unit)))).of_iff ?_
      simp [Monomial.poly, h0]
    · rw [if_neg (fun h => h0 (monomial_isZeroPoly.1 h))] at h' ⊢
      rw [if_neg (fun h => h0 (monomial_isZeroPoly.1 h))]
      by_cases hd : d = s.deg
      · rw [if_pos hd, if_pos hd]
        refine ((chk_result t (s.coefficient + c)).map
          (fun v => (({ s with coefficient := v } : Monomial Int), (Except.ok () : Except TryAddError Unit)))).of_iff ?_
        simp [Monomial.poly, hd]
      · rw [if_neg hd] at h'; simp at h'
  err s c d s' e h := by
    have h' : s.tryAddTerm c d = (s', .error e) := h
    show s.tryAddTermM (.machine true t) c d = _
    unfold Monomial.tryAddTerm at h'
    unfold Monomial.tryAddTermM
    by_cases h0 : s.coefficient = 0
    · rw [if_pos (monomial_isZeroPoly.2 h0)] at h'; simp at h'
    · rw [if_neg (fun h => h0 (monomial_isZeroPoly.1 h))] at h' ⊢
      by_cases hd : d = s.deg
      · rw [if_pos hd] at h'; simp at h'
      · rw [if_neg hd] at h' ⊢; rw [h']

/-- `try_add_term` of a linear binomial. -/
def linearAddStep : StepM t (LinearBinomial Int) LinearBinomial.poly 1 MutPoly.tryAddTerm
    (MutPolyM.tryAddTermM (.machine true t w cap)) where
  lim _ := True
  sized _ := True
  repr_ok s c d s' h := by
    have := LawfulMutPoly.add_ok _ _ _ _ h
    rw [one_mul]; exact this
  ok s c d s' _ hin hc h := by
    refine ⟨?_, fun _ => trivial⟩
    have h' : s.tryAddTerm c d = (s', .ok ()) := h
    show Chk _ (s.tryAddTermM (.machine true t) c d) _
    rw [← h', one_mul]
    simp only [true_and]
    unfold LinearBinomial.tryAddTerm at h'
    unfold LinearBinomial.tryAddTermM LinearBinomial.tryAddTerm
    by_cases hd : d ≤ 1
    · rw [if_pos hd, if_pos hd]
      have h := (chk_result t ((if 1 - d = 0 then s.c0 else s.c1) + c)).map
        (fun v => (s.modify (1 - d) (fun _ => v), (Except.ok () : Except TryAddError Unit)))
      have e : s.modify (1 - d) (fun _ => (if 1 - d = 0 then s.c0 else s.c1) + c) = s.modify (1 - d) (· + c) := by
        interval_cases d <;> rfl
      rw [e] at h
      refine h.of_iff ?_
      rw [LinearBinomial.poly, linear_coeff]
      interval_cases d <;> simp
    · rw [if_neg hd] at h'; simp at h'
  err s c d s' e h := by
    have h' : s.tryAddTerm c d = (s', .error e) := h
    show s.tryAddTermM (.machine true t) c d = _
    unfold LinearBinomial.tryAddTerm at h'
    unfold LinearBinomial.tryAddTermM
    by_cases hd : d ≤ 1
    · rw [if_pos hd] at h'; simp at h'
    · rw [if_neg hd] at h' ⊢; rw [h']

/-- `try_add_term` of a quadratic trinomial. -/
def quadraticAddStep : StepM t (QuadraticTrinomial Int) QuadraticTrinomial.poly 1 MutPoly.tryAddTerm
    (MutPolyM.tryAddTermM (.machine true t w cap)) where
  lim _ := True
  sized _ := True
  repr_ok s c d s' h := by
    have := LawfulMutPoly.add_ok _ _ _ _ h
    rw [one_mul]; exact this
  ok s c d s' _ hin hc h := by
    refine ⟨?_, fun _ => trivial⟩
    have h' : s.tryAddTerm c d = (s', .ok ()) := h
    show Chk _ (s.tryAddTermM (.machine true t) c d) _
    rw [← h', one_mul]
    simp only [true_and]
    unfold QuadraticTrinomial.tryAddTerm at h'
    unfold QuadraticTrinomial.tryAddTermM QuadraticTrinomial.tryAddTerm
    by_cases hd : d ≤ 2
    · rw [if_pos hd, if_pos hd]
      have h := (chk_result t ((if 2 - d = 0 then s.c0 else if 2 - d = 1 then s.c1 else s.c2) + c)).map
        (fun v => (s.modify (2 - d) (fun _ => v), (Except.ok () : Except TryAddError Unit)))
      have e : s.modify (2 - d) (fun _ => (if 2 - d = 0 then s.c0 else if 2 - d = 1 then s.c1 else s.c2) + c) =
          s.modify (2 - d) (· + c) := by
        interval_cases d <;> rfl
      rw [e] at h
      refine h.of_iff ?_
      rw [QuadraticTrinomial.poly, quadratic_coeff]
      interval_cases d <;> simp
    · rw [if_neg hd] at h'; simp at h'
  err s c d s' e h := by
    have h' : s.tryAddTerm c d = (s', .error e) := h
    show s.tryAddTermM (.machine true t) c d = _
    unfold QuadraticTrinomial.tryAddTerm at h'
    unfold QuadraticTrinomial.tryAddTermM
    by_cases hd : d ≤ 2
    · rw [if_pos hd] at h'; simp at h'
    · rw [if_neg hd] at h' ⊢; rw [h']

end

end Rustnomial
