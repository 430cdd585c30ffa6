/-
Insertion-ordered association lists standing for Python dictionaries
(`d.get(k)`, `d[k] = v`, `del d[k]`, `k in d`, `len(d)`, iteration over keys).
Used by the models of every module of `/repo/dyna` that keeps a dict.
-/
import Mathlib.Data.List.Nodup
import Mathlib.Data.List.Basic

set_option linter.unusedSectionVars false
set_option linter.unusedSimpArgs false

namespace Verif

/-- A Python dict as the list of its items in insertion order. -/
abbrev Dict (α β : Type*) := List (α × β)

namespace Dict
variable {α β : Type*} [DecidableEq α]

/-- `d.get(k)` -/
def get (d : Dict α β) (k : α) : Option β :=
  match d with
  | [] => none
  | (k', v) :: d => if k' = k then some v else get d k

/-- `d[k] = v`: overwrite in place, or insert at the end. -/
def set (d : Dict α β) (k : α) (v : β) : Dict α β :=
  match d with
  | [] => [(k, v)]
  | (k', v') :: d => if k' = k then (k', v) :: d else (k', v') :: set d k v

/-- `del d[k]` (the caller checks for `KeyError`) -/
def del (d : Dict α β) (k : α) : Dict α β :=
  match d with
  | [] => []
  | (k', v') :: d => if k' = k then del d k else (k', v') :: del d k

/-- the keys in iteration order -/
def keys (d : Dict α β) : List α := d.map Prod.fst

/-- dictionaries never hold a key twice -/
def WF (d : Dict α β) : Prop := (keys d).Nodup

@[simp] theorem get_nil (k : α) : get ([] : Dict α β) k = none := rfl
@[simp] theorem keys_nil : keys ([] : Dict α β) = [] := rfl
@[simp] theorem keys_cons (p : α × β) (d : Dict α β) : keys (p :: d) = p.1 :: keys d := rfl

theorem get_cons (k' : α) (v : β) (d : Dict α β) (k : α) :
    get ((k', v) :: d) k = if k' = k then some v else get d k := rfl

theorem get_set (d : Dict α β) (k : α) (v : β) (x : α) :
    get (set d k v) x = if k = x then some v else get d x := by
  induction d with
  | nil => simp [set, get]
  | cons p d ih =>
    obtain ⟨k', v'⟩ := p
    by_cases h : k' = k
    · subst h; by_cases h2 : k' = x <;> simp [set, get, h2]
    · by_cases h2 : k' = x
      · subst h2; simp [set, get, h, Ne.symm h]
      · simp [set, get, h, h2, ih]

theorem get_del (d : Dict α β) (k x : α) :
    get (del d k) x = if k = x then none else get d x := by
  induction d with
  | nil => simp [del]
  | cons p d ih =>
    obtain ⟨k', v'⟩ := p
    by_cases h : k' = k
    · subst h; by_cases h2 : k' = x
      · subst h2; simpa [del] using ih
      · simp [del, get, h2, ih]
    · by_cases h2 : k' = x
      · subst h2; simp [del, get, h, Ne.symm h]
      · simp [del, get, h, h2, ih]

theorem get_isSome_iff (d : Dict α β) (k : α) : (get d k).isSome ↔ k ∈ keys d := by
  induction d with
  | nil => simp
  | cons p d ih =>
    obtain ⟨k', v'⟩ := p
    by_cases h : k' = k
    · simp [get, h]
    · simp [get, h, ih, Ne.symm h]

theorem get_eq_none_iff (d : Dict α β) (k : α) : get d k = none ↔ k ∉ keys d := by
  rw [← get_isSome_iff]; cases get d k <;> simp

theorem mem_of_get {d : Dict α β} {k : α} {v : β} (h : get d k = some v) : (k, v) ∈ d := by
  induction d with
  | nil => simp at h
  | cons p d ih =>
    obtain ⟨k', v'⟩ := p
    by_cases e : k' = k
    · simp [get, e] at h; simp [e, h]
    · simp [get, e] at h; exact List.mem_cons_of_mem _ (ih h)

theorem mem_keys_of_mem {d : Dict α β} {k : α} {v : β} (h : (k, v) ∈ d) : k ∈ keys d :=
  List.mem_map.2 ⟨_, h, rfl⟩

theorem get_of_mem {d : Dict α β} (hd : WF d) {k : α} {v : β} (h : (k, v) ∈ d) :
    get d k = some v := by
  induction d with
  | nil => simp at h
  | cons p d ih =>
    obtain ⟨k', v'⟩ := p
    simp only [WF, keys_cons, List.nodup_cons] at hd
    rcases List.mem_cons.1 h with h | h
    · cases h; simp [get]
    · have : k' ≠ k := by rintro rfl; exact hd.1 (mem_keys_of_mem h)
      simp [get, this, ih hd.2 h]

theorem keys_set (d : Dict α β) (k : α) (v : β) :
    keys (set d k v) = if k ∈ keys d then keys d else keys d ++ [k] := by
  induction d with
  | nil => simp [set, keys]
  | cons p d ih =>
    obtain ⟨k', v'⟩ := p
    by_cases h : k' = k
    · simp [set, h, keys]
    · simp only [set, h, if_false, keys_cons, ih, List.mem_cons, Ne.symm h, false_or]
      split <;> simp

theorem keys_del (d : Dict α β) (k : α) : keys (del d k) = (keys d).filter (fun x => decide (x ≠ k)) := by
  induction d with
  | nil => rfl
  | cons p d ih =>
    obtain ⟨k', v'⟩ := p
    by_cases h : k' = k <;> simp [del, h, ih, List.filter_cons]

theorem WF.set {d : Dict α β} (h : WF d) (k : α) (v : β) : WF (set d k v) := by
  unfold WF at *
  rw [keys_set]
  split
  · exact h
  · rename_i hk
    rw [List.nodup_append]
    refine ⟨h, by simp, ?_⟩
    intro a ha b hb
    simp at hb; subst hb; rintro rfl; exact hk ha

theorem WF.del {d : Dict α β} (h : WF d) (k : α) : WF (del d k) := by
  unfold WF at *
  rw [keys_del]; exact h.filter _

theorem WF.nil : WF ([] : Dict α β) := by simp [WF]

theorem mem_keys_iff_get (d : Dict α β) (k : α) : k ∈ keys d ↔ ∃ v, get d k = some v := by
  rw [← get_isSome_iff, Option.isSome_iff_exists]

theorem mem_del {d : Dict α β} {k : α} {p : α × β} : p ∈ del d k ↔ p ∈ d ∧ p.1 ≠ k := by
  induction d with
  | nil => simp [del]
  | cons q d ih =>
    obtain ⟨k', v'⟩ := q
    by_cases h : k' = k
    · subst h; simp only [del, if_true, ih, List.mem_cons]
      constructor
      · rintro ⟨a, b⟩; exact ⟨Or.inr a, b⟩
      · rintro ⟨rfl | a, b⟩
        · exact absurd rfl b
        · exact ⟨a, b⟩
    · simp only [del, h, if_false, List.mem_cons, ih]
      constructor
      · rintro (rfl | ⟨a, b⟩)
        · exact ⟨Or.inl rfl, h⟩
        · exact ⟨Or.inr a, b⟩
      · rintro ⟨rfl | a, b⟩
        · exact Or.inl rfl
        · exact Or.inr ⟨a, b⟩

theorem mem_iff_get {d : Dict α β} (hd : WF d) {k : α} {v : β} :
    (k, v) ∈ d ↔ get d k = some v := ⟨get_of_mem hd, mem_of_get⟩

theorem mem_set {d : Dict α β} (hd : WF d) {k : α} {v : β} {p : α × β} :
    p ∈ set d k v ↔ p = (k, v) ∨ (p ∈ d ∧ p.1 ≠ k) := by
  obtain ⟨a, b⟩ := p
  rw [mem_iff_get (hd.set k v), get_set, mem_iff_get hd]
  by_cases h : k = a
  · subst h; simp [eq_comm]
  · simp [h, Ne.symm h]

end Dict
end Verif
