/-
More fuel does not change a finished run of `unfold`.
-/
import Verif.UnfoldLift

set_option linter.unusedSectionVars false
set_option linter.unusedSimpArgs false

namespace Verif
open Tm Heap Sem
open Solver (noHeap forEach)

namespace Unfold
variable {W : Type}

theorem forEach_mono {α S : Type} {b b' : α → Body S} (hb : ∀ a h s r, b a h s = some r → b' a h s = some r) :
    ∀ (l : List α) h s r, forEach l b h s = some r → forEach l b' h s = some r
  | [], h, s, r, e => e
  | a :: l, h, s, r, e => by
    simp only [forEach] at e ⊢
    cases h1 : b a h s with
    | none => simp [h1] at e
    | some q =>
      obtain ⟨h', s', g⟩ := q
      rw [hb a h s _ h1]
      cases g with
      | done => simp only [h1] at e ⊢; exact forEach_mono hb l _ _ _ e
      | brk => simpa [h1] using e
      | exc c => simpa [h1] using e

theorem allSome_mono {α : Type} {β : Type} {g g' : α → Option β} : ∀ {l : List α} {r}, (∀ a ∈ l, ∀ b, g a = some b → g' a = some b) →
    allSome (l.map g) = some r → allSome (l.map g') = some r := by
  intro l r h e
  rw [allSome_eq_some] at e ⊢
  rw [← e]
  refine List.map_congr_left fun a ha => ?_
  have : g a ∈ r.map some := by rw [← e]; exact List.mem_map_of_mem ha
  obtain ⟨b, _, hb⟩ := List.mem_map.1 this
  rw [← hb, h a ha b hb.symm]

theorem derefLit_mono {h : Heap} {f g : Nat} (hfg : f ≤ g) {l l' : Lit W} (e : derefLit h f l = some l') : derefLit h g l = some l' := by
  cases l with
  | val c => exact e
  | sub t =>
    simp only [derefLit, Option.map_eq_some_iff] at e ⊢
    obtain ⟨a, h1, h2⟩ := e
    exact ⟨a, deref_mono h1 hfg, h2⟩

theorem derefR_mono {h : Heap} {f g : Nat} (hfg : f ≤ g) {r r' : WRule W} (e : derefR h f r = some r') : derefR h g r = some r' := by
  unfold derefR at e ⊢
  cases h1 : derefF h f r.head with
  | none => simp [h1] at e
  | some hd =>
    cases h2 : allSome (r.body.map (derefLit h f)) with
    | none => simp [h1, h2] at e
    | some b =>
      rw [deref_mono h1 hfg, allSome_mono (fun l _ l' e => derefLit_mono hfg e) h2]
      simpa [h1, h2] using e

theorem isInput_mono {q : Tm} {h : Heap} {f : Nat} : ∀ {ts : List Tm} {b}, isInput f q h ts = some b → isInput (f + 1) q h ts = some b
  | [], b, e => e
  | t :: ts, b, e => by
    simp only [isInput] at e ⊢
    cases h1 : unifiesF f t q h with
    | none => simp [h1] at e
    | some c =>
      rw [unifiesF_mono h1]
      cases c with
      | true => simpa [h1] using e
      | false => simp only [h1] at e ⊢; exact isInput_mono e

variable [One W] [DecidableEq W]

theorem resolvent_mono {f : Nat} {inf : W} {head : Tm} {L R : List (Lit W)} {s : WRule W} {i : Option Nat} {h : Heap} {st : US W} {r}
    (e : resolvent f inf head L R s i h st = some r) : resolvent (f + 1) inf head L R s i h st = some r := by
  unfold resolvent at e ⊢
  cases h1 : derefR h f ⟨head, L ++ s.body ++ R⟩ with
  | none => simp only [h1] at e; cases e
  | some t =>
    cases h2 : derefR h f s with
    | none => simp only [h1, h2] at e; cases e
    | some s' =>
      rw [derefR_mono (Nat.le_succ f) h1, derefR_mono (Nat.le_succ f) h2]
      simpa only [h1, h2] using e

section
variable {f : Nat} {q : Tm} {b b' : WRule W → Option Nat → Body (US W)}

theorem tryRule_mono (hb : ∀ s i h st r, b s i h st = some r → b' s i h st = some r) (ir : WRule W × Nat) (h : Heap) (st : US W) (r)
    (e : tryRule f q b ir h st = some r) : tryRule (f + 1) q b' ir h st = some r := by
  unfold tryRule at e ⊢
  exact (unify_mono f).1 _ _ _ _ _ _ _ (hb _ _) e

theorem lookup_mono {ops : Ops} {d : List (WRule W)} (hb : ∀ s i h st r, b s i h st = some r → b' s i h st = some r) (h : Heap) (st : US W) (r)
    (e : lookup f ops d q b h st = some r) : lookup (f + 1) ops d q b' h st = some r := by
  have hoff : ∀ c h st r, forEach (offers d c) (tryRule f q b) h st = some r → forEach (offers d c) (tryRule (f + 1) q b') h st = some r :=
    fun c h st r => forEach_mono (tryRule_mono hb) _ _ _ _
  unfold lookup at e ⊢
  split at e
  · exact forEach_mono (tryRule_mono hb) _ _ _ _ e
  · rename_i c as
    by_cases hu : unmodelled c = true
    · rw [if_pos hu] at e ⊢; exact e
    rw [if_neg hu] at e ⊢
    split at e
    · rename_i o x y ho
      cases h1 : groundF h f x with
      | none => simp [h1] at e
      | some b1 =>
      cases h2 : groundF h f y with
      | none => simp [h1, h2] at e
      | some b2 =>
      cases h3 : derefF h f x with
      | none => simp [h1, h2, h3] at e
      | some x' =>
      cases h4 : derefF h f y with
      | none => simp [h1, h2, h3, h4] at e
      | some y' =>
      rw [Solver.ground_mono_le (Nat.le_succ f) h1, Solver.ground_mono_le (Nat.le_succ f) h2, deref_mono h3 (Nat.le_succ f), deref_mono h4 (Nat.le_succ f)]
      simp only [h1, h2, h3, h4] at e
      have delayed : ∀ r, (match b ⟨.app [.con c, x, y], [.sub (.app [.con c, x, y])]⟩ none h st with
          | none => none
          | some (h, s, .done) => forEach (offers d c) (tryRule f (.app [.con c, x, y]) b) h s
          | some r => some r) = some r → (match b' ⟨.app [.con c, x, y], [.sub (.app [.con c, x, y])]⟩ none h st with
          | none => none
          | some (h, s, .done) => forEach (offers d c) (tryRule (f + 1) (.app [.con c, x, y]) b') h s
          | some r => some r) = some r := by
        intro r e
        cases h5 : b ⟨.app [.con c, x, y], [.sub (.app [.con c, x, y])]⟩ none h st with
        | none => simp [h5] at e
        | some q =>
          rw [hb _ _ _ _ _ h5]
          obtain ⟨h', s', g⟩ := q
          cases g with
          | done => simp only [h5] at e ⊢; exact hoff _ _ _ _ e
          | brk => simpa [h5] using e
          | exc c => simpa [h5] using e
      cases b1 <;> cases b2 <;> simp only at e ⊢
      · exact delayed r e
      · exact delayed r e
      · exact delayed r e
      · split at e
        · rename_i ht; rw [if_pos ht]; exact hb _ _ _ _ _ e
        · rename_i ht; rw [if_neg ht]; exact e
    · split at e
      · exact (unify_mono f).1 _ _ _ _ _ _ _ (hb _ _) e
      · exact hoff _ _ _ _ e
  · exact e

end

theorem unfold_mono {f : Nat} {ops : Ops} {inf : W} {k : Nat} {p d : Prog W} {i j : Nat} {r}
    (e : unfold f ops inf k p d i j = some r) : unfold (f + 1) ops inf k p d i j = some r := by
  unfold unfold at e ⊢
  cases h1 : p.rules[i]? with
  | none => simpa [h1] using e
  | some r0 =>
    simp only [h1] at e ⊢
    cases h2 : r0.body[j]? with
    | none => simpa [h2] using e
    | some l =>
      cases l with
      | val c => simpa [h2] using e
      | sub q =>
        simp only [h2] at e ⊢
        cases h3 : isInput f q noHeap d.inputs with
        | none => simp [h3] at e
        | some b =>
          rw [isInput_mono h3]
          cases b with
          | true => simpa [h3] using e
          | false =>
            simp only [h3] at e ⊢
            cases h4 : lookup f ops d.rules q (resolvent f inf r0.head (r0.body.take j) (r0.body.drop (j + 1))) noHeap ⟨[], k⟩ with
            | none => simp [h4] at e
            | some res =>
              rw [lookup_mono (fun s i h st r => resolvent_mono) _ _ _ h4]
              simpa [h4] using e

theorem unfold_det {f : Nat} {ops : Ops} {inf : W} {k : Nat} {p d : Prog W} {i j : Nat} {r r'}
    (e : unfold f ops inf k p d i j = some r) (e' : Evt fun f => unfold f ops inf k p d i j = some r') : r = r' := by
  obtain ⟨N, hN⟩ := e'
  have h1 : unfold (max f N) ops inf k p d i j = some r := mono_le (g := fun f => unfold f ops inf k p d i j) (fun f r => unfold_mono) (le_max_left f N) e
  rw [hN _ (le_max_right f N)] at h1
  exact (Option.some.inj h1).symm

end Unfold
end Verif
