/-
Which items of a program are derivable: the specification against which Boolean analyses of programs are stated.
Nothing here models a function of the repository.
-/
import Verif.Conserv

set_option linter.unusedSectionVars false
set_option linter.unusedSimpArgs false

namespace Verif
open Tm Sem

namespace Horn
variable {W : Type}

/-- the items derivable by the rules `p` from the data `d`; `ok` says which weights count as true -/
inductive Der (ok : W → Prop) (p : List (WRule W)) (d : GTm → Prop) : GTm → Prop
  | data {x : GTm} : d x → Der ok p d x
  | rule {r : WRule W} (hr : r ∈ p) (θ : Nat → GTm) (hw : ∀ w, Lit.val w ∈ r.body → ok w)
      (hb : ∀ t, Lit.sub t ∈ r.body → Der ok p d (gsub θ t)) : Der ok p d (gsub θ r.head)

/-- a rule instance all of whose subgoals are derivable -/
structure Fires (ok : W → Prop) (D : GTm → Prop) (b : List (Lit W)) (θ : Nat → GTm) : Prop where
  wts : ∀ w, Lit.val w ∈ b → ok w
  subs : ∀ t, Lit.sub t ∈ b → D (gsub θ t)

theorem Der.fire {ok : W → Prop} {p : List (WRule W)} {d : GTm → Prop} {r : WRule W} (hr : r ∈ p) {θ : Nat → GTm} (h : Fires ok (Der ok p d) r.body θ) :
    Der ok p d (gsub θ r.head) := .rule hr θ h.wts h.subs

theorem Fires.mono {ok : W → Prop} {D D' : GTm → Prop} {b : List (Lit W)} {θ : Nat → GTm} (h : Fires ok D b θ) (hD : ∀ x, D x → D' x) :
    Fires ok D' b θ := ⟨h.wts, fun t ht => hD _ (h.subs t ht)⟩

theorem Fires.sub {ok : W → Prop} {D : GTm → Prop} {b b' : List (Lit W)} {θ : Nat → GTm} (h : Fires ok D b θ) (hb : ∀ l ∈ b', l ∈ b) :
    Fires ok D b' θ := ⟨fun w hw => h.wts w (hb _ hw), fun t ht => h.subs t (hb _ ht)⟩

theorem Fires.append {ok : W → Prop} {D : GTm → Prop} {b b' : List (Lit W)} {θ : Nat → GTm} (h : Fires ok D b θ) (h' : Fires ok D b' θ) :
    Fires ok D (b ++ b') θ :=
  ⟨fun w hw => (List.mem_append.1 hw).elim (h.wts w) (h'.wts w), fun t ht => (List.mem_append.1 ht).elim (h.subs t) (h'.subs t)⟩

/-! ### Derivability is naive evaluation with truth values -/

theorem bv_true {v : GTm → TV} {θ : Nat → GTm} : ∀ {b : List (Lit TV)}, bv v θ b = .t ↔ Fires (· = .t) (fun x => v x = .t) b θ
  | [] => ⟨fun _ => ⟨by simp, by simp⟩, fun _ => rfl⟩
  | l :: b => by
    rw [bv_cons, TV.mul_iff, bv_true (b := b)]
    constructor
    · rintro ⟨h1, h2⟩
      refine ⟨fun w hw => ?_, fun t ht => ?_⟩
      · rcases List.mem_cons.1 hw with rfl | hw
        · exact h1
        · exact h2.wts w hw
      · rcases List.mem_cons.1 ht with rfl | ht
        · exact h1
        · exact h2.subs t ht
    · intro h
      refine ⟨?_, h.sub fun l hl => List.mem_cons_of_mem _ hl⟩
      cases l with
      | val w => exact h.wts w (by simp)
      | sub t => exact h.subs t (by simp)

theorem contrib_true {r : WRule TV} {v : GTm → TV} {x : GTm} : contrib r v x = .t ↔
    ∃ θ, gsub θ r.head = x ∧ Fires (· = .t) (fun x => v x = .t) r.body θ := by
  unfold contrib
  rw [show (isum : (Asg (rvars r) → TV) → TV) = TV.any from rfl, TV.any_iff]
  constructor
  · rintro ⟨a, h⟩
    split at h
    · next e => exact ⟨ext a, e, bv_true.1 h⟩
    · exact absurd h (by decide)
  · rintro ⟨θ, e, h⟩
    refine ⟨cut _ θ, ?_⟩
    have ag : ∀ n ∈ rvars r, ext (cut (rvars r) θ) n = θ n := fun n hn => ext_cut hn
    rw [gsub_congr (t := r.head) fun n hn => ag n (Finset.mem_union_left _ hn), bv_congr (b := r.body) fun n hn => ag n (Finset.mem_union_right _ hn),
      if_pos e]
    exact bv_true.2 h

theorem T_true {v : GTm → TV} {x : GTm} : ∀ {p : List (WRule TV)}, T p v x = .t ↔ ∃ r ∈ p, contrib r v x = .t
  | [] => by simp [T]
  | r :: p => by rw [T_cons, TV.add_iff, T_true (p := p)]; simp

theorem rounds_true_mono {p : List (WRule TV)} {d : GTm → TV} {m n : Nat} (h : m ≤ n) {x : GTm} (hx : rounds p d m x = .t) : rounds p d n x = .t :=
  rounds_mono p d h x hx

/-- an item is derivable iff it becomes true in some round -/
theorem der_iff_rounds {p : List (WRule TV)} {d : GTm → TV} {x : GTm} : Der (· = .t) p (fun x => d x = .t) x ↔ ∃ n, rounds p d n x = .t := by
  constructor
  · intro h
    induction h with
    | data h => exact ⟨1, (TV.add_iff _ _).2 (.inl h)⟩
    | @rule r hr θ hw _ ih =>
      have : ∃ n, ∀ t, Lit.sub t ∈ r.body → rounds p d n (gsub θ t) = .t := by
        clear hw
        generalize r.body = b at ih
        induction b with
        | nil => exact ⟨0, by simp⟩
        | cons l b ihb =>
          obtain ⟨n, hn⟩ := ihb fun t ht => ih t (List.mem_cons_of_mem _ ht)
          cases l with
          | val w => exact ⟨n, fun t ht => hn t (by simpa using ht)⟩
          | sub s =>
            obtain ⟨m, hm⟩ := ih s (by simp)
            refine ⟨max n m, fun t ht => ?_⟩
            rcases List.mem_cons.1 ht with e | ht
            · cases e; exact rounds_true_mono (le_max_right _ _) hm
            · exact rounds_true_mono (le_max_left _ _) (hn t ht)
      obtain ⟨n, hn⟩ := this
      exact ⟨n + 1, (TV.add_iff _ _).2 (.inr (T_true.2 ⟨r, hr, contrib_true.2 ⟨θ, rfl, hw, hn⟩⟩))⟩
  · rintro ⟨n, h⟩
    induction n generalizing x with
    | zero => exact absurd h (by simp [rounds])
    | succ n ih =>
      rcases (TV.add_iff _ _).1 h with h | h
      · exact .data h
      · obtain ⟨r, hr, hc⟩ := T_true.1 h
        obtain ⟨θ, rfl, hf⟩ := contrib_true.1 hc
        exact .rule hr θ hf.wts fun t ht => ih (hf.subs t ht)

/-- booleanization: which weights count as true -/
def mapLit {V : Type} (f : W → V) : Lit W → Lit V
  | .val w => .val (f w)
  | .sub t => .sub t
def mapRule {V : Type} (f : W → V) (r : WRule W) : WRule V := ⟨r.head, r.body.map (mapLit f)⟩

theorem val_mem_map {V : Type} {f : W → V} {b : List (Lit W)} {v : V} : Lit.val v ∈ b.map (mapLit f) ↔ ∃ w, Lit.val w ∈ b ∧ f w = v := by
  rw [List.mem_map]
  constructor
  · rintro ⟨l, hl, e⟩
    cases l with
    | val w => simp only [mapLit, Lit.val.injEq] at e; exact ⟨w, hl, e⟩
    | sub t => simp [mapLit] at e
  · rintro ⟨w, hw, rfl⟩; exact ⟨_, hw, rfl⟩

theorem sub_mem_map {V : Type} {f : W → V} {b : List (Lit W)} {t : Tm} : Lit.sub t ∈ b.map (mapLit f) ↔ Lit.sub t ∈ b := by
  rw [List.mem_map]
  constructor
  · rintro ⟨l, hl, e⟩
    cases l with
    | val w => simp [mapLit] at e
    | sub t => simp only [mapLit, Lit.sub.injEq] at e; rwa [← e]
  · intro h; exact ⟨_, h, rfl⟩

theorem der_map {V : Type} {f : W → V} {ok : V → Prop} {p : List (WRule W)} {d : GTm → Prop} {x : GTm} :
    Der ok (p.map (mapRule f)) d x ↔ Der (fun w => ok (f w)) p d x := by
  constructor
  · intro h
    induction h with
    | data h => exact .data h
    | rule hr θ hw _ ih =>
      obtain ⟨r, hp, rfl⟩ := List.mem_map.1 hr
      exact Der.rule (r := r) hp θ (fun w hm => hw _ (val_mem_map.2 ⟨w, hm, rfl⟩)) fun t ht => ih t (sub_mem_map.2 ht)
  · intro h
    induction h with
    | data h => exact .data h
    | @rule r hr θ hw _ ih =>
      refine Der.rule (r := mapRule f r) (List.mem_map_of_mem hr) θ (fun v hm => ?_) fun t ht => ih t (sub_mem_map.1 ht)
      obtain ⟨w, hm', rfl⟩ := val_mem_map.1 hm
      exact hw w hm'

end Horn
end Verif
