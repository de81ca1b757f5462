import Verif.Num

/-!
# Ordered maps

`alloc::collections::BTreeMap<usize, N>` as the list of its entries in ascending key order.  The
BTreeMap itself (external code) is trusted to behave like this.
-/

namespace Rustnomial

/-- A `BTreeMap<usize, N>`: entries in strictly ascending order of key. -/
structure BMap (N : Type) where
  entries : List (Nat × N)
  sorted : entries.Pairwise (fun a b => a.1 < b.1)

namespace BMap
variable {N : Type}

/-- Insertion in the entry list. -/
def insertList (k : Nat) (v : N) : List (Nat × N) → List (Nat × N)
  | [] => [(k, v)]
  | (k', v') :: t =>
    if k < k' then (k, v) :: (k', v') :: t
    else if k = k' then (k, v) :: t
    else (k', v') :: insertList k v t

/-- Lookup in the entry list. -/
def getList (k : Nat) : List (Nat × N) → Option N
  | [] => none
  | (k', v) :: t => if k = k' then some v else getList k t

theorem mem_insertList {k : Nat} {v : N} {l : List (Nat × N)} {e : Nat × N}
    (h : e ∈ insertList k v l) : e = (k, v) ∨ e ∈ l := by
  induction l with
  | nil => simp [insertList] at h; exact .inl h
  | cons a t ih =>
    obtain ⟨k', v'⟩ := a
    unfold insertList at h
    split at h
    · rcases List.mem_cons.1 h with h | h
      · exact .inl h
      · exact .inr h
    · split at h
      · rcases List.mem_cons.1 h with h | h
        · exact .inl h
        · exact .inr (List.mem_cons_of_mem _ h)
      · rcases List.mem_cons.1 h with h | h
        · exact .inr (by rw [h]; exact List.mem_cons_self ..)
        · rcases ih h with h | h
          · exact .inl h
          · exact .inr (List.mem_cons_of_mem _ h)

theorem insertList_sorted {k : Nat} {v : N} {l : List (Nat × N)}
    (h : l.Pairwise (fun a b => a.1 < b.1)) :
    (insertList k v l).Pairwise (fun a b => a.1 < b.1) := by
  induction l with
  | nil => simp [insertList]
  | cons a t ih =>
    obtain ⟨k', v'⟩ := a
    rw [List.pairwise_cons] at h
    unfold insertList
    split
    · rename_i hlt
      refine List.pairwise_cons.2 ⟨?_, List.pairwise_cons.2 h⟩
      intro b hb
      rcases List.mem_cons.1 hb with rfl | hb
      · exact hlt
      · exact Nat.lt_trans hlt (h.1 b hb)
    · split
      · rename_i heq
        subst heq
        exact List.pairwise_cons.2 h
      · refine List.pairwise_cons.2 ⟨?_, ih h.2⟩
        intro b hb
        rcases mem_insertList hb with rfl | hb
        · show k' < k
          omega
        · exact h.1 b hb

/-- `BTreeMap::new`, `clear`. -/
def empty : BMap N := ⟨[], .nil⟩

/-- `BTreeMap::insert`; also the effect of writing through `get_mut` on a present key. -/
def insert (m : BMap N) (k : Nat) (v : N) : BMap N :=
  ⟨insertList k v m.entries, insertList_sorted m.sorted⟩

/-- `BTreeMap::get`. -/
def get (m : BMap N) (k : Nat) : Option N := getList k m.entries

/-- `BTreeMap::retain`. -/
def retain (m : BMap N) (f : Nat → N → Bool) : BMap N :=
  ⟨m.entries.filter fun e => f e.1 e.2, m.sorted.filter _⟩

/-- Writing through `iter_mut`: every value is replaced, the keys stay. -/
def mapVals {M : Type} (m : BMap N) (f : N → M) : BMap M :=
  ⟨m.entries.map fun e => (e.1, f e.2), by
    rw [List.pairwise_map]; exact m.sorted⟩

/-- The idiom
`match m.get_mut(&k) { None => { m.insert(k, v); } Some(val) => { *val = f(*val); } }`. -/
def upsert (m : BMap N) (k : Nat) (v : N) (f : N → N) : BMap N :=
  match m.get k with
  | none => m.insert k v
  | some val => m.insert k (f val)

/-- `collect()` of key-value pairs into a map: later pairs overwrite earlier ones. -/
def ofList (l : List (Nat × N)) : BMap N := l.foldl (fun m e => m.insert e.1 e.2) empty

end BMap
end Rustnomial
