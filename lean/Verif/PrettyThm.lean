/-
Property C44: printing an operator term and parsing it back (model in `Verif/Pretty.lean`).
-/
import Verif.Pretty

set_option linter.unusedSectionVars false
set_option linter.unusedSimpArgs false

namespace Verif
namespace Pretty

/-! ### Specification -/

/-- What the proofs need of an operator table and of the two argument levels. -/
structure Valid (T : List Op) (A C : Nat) : Prop where
  /-- no two entries share a binary token -/
  syms : ∀ (i j : Nat) (o o' : Op) (s : String), T[i]? = some o → T[j]? = some o' → s ∈ o.syms →
    s ∈ o'.syms → i = j
  /-- no two entries share a prefix token -/
  pres : ∀ (i j : Nat) (s : String) (p p' : Nat), T[i]? = some (.pre s p) → T[j]? = some (.pre s p') → i = j
  /-- prefix operators bind tighter than the others -/
  first : ∀ (i j : Nat) (s t : String) (p : Nat) (o : Op), T[i]? = some (.pre s p) → T[j]? = some o →
    t ∈ o.syms → i < j
  sorted : ∀ (i j : Nat) (o o' : Op), T[i]? = some o → T[j]? = some o' → i < j → o'.prio ≤ o.prio
  cmpPrio : ∀ (i j : Nat) (s : String) (p p' : Nat) (a : Assoc), T[i]? = some (.cmp p) →
    T[j]? = some (.bin s p' a) → p ≠ p'
  comma : ∀ (i p : Nat), T[i]? ≠ some (.pre "," p)
  args : ∀ (k : Nat) (o : Op), T[k]? = some o → "," ∈ o.syms → A ≤ k ∧ C ≤ k
  top : A ≤ T.length ∧ C ≤ T.length

/-- `s` is a binary operator at index `i` of the table. -/
def At (T : List Op) (i : Nat) (s : String) : Prop := ∃ o, T[i]? = some o ∧ s ∈ o.syms

variable {T : List Op} {A C : Nat}

/-- The level at which a term can stand without parentheses. -/
inductive Lev (T : List Op) : E → Nat → Prop
  | atom (w) : Lev T (.atom w) 0
  | call (w es) : Lev T (.call w es) 0
  | list (es) : Lev T (.list es) 0
  | bin {s i a b} : At T i s → Lev T (.bin s a b) (i + 1)
  | un {s i p a} : T[i]? = some (.pre s p) → Lev T (.un s a) (i + 1)

/-- Terms for which the printer's parentheses are right:
* `for` is read as a comma;
* on the left of an operator, no left-associative operator of the same priority that was declared
  *later*; on the right, no right-associative one declared later;
* below a prefix operator, no prefix operator declared later (among those of equal priority);
* arguments and list items are not made with operators of too low a priority (the comma and below, the
  bar and below). -/
inductive Safe (T : List Op) (A C : Nat) : E → Prop
  | atom (w) : Safe T A C (.atom w)
  | bin {s a b} : Safe T A C a → Safe T A C b → s ≠ "for" →
      (∀ (i j : Nat) t x y p q c, a = .bin t x y → T[i]? = some (.bin t p .L) → T[j]? = some (.bin s q c) → p = q →
        i ≤ j) →
      (∀ (i j : Nat) t x y p q c, b = .bin t x y → T[i]? = some (.bin t p .R) → T[j]? = some (.bin s q c) → p = q →
        i ≤ j) → Safe T A C (.bin s a b)
  | un {s a} : Safe T A C a →
      (∀ (i j : Nat) t x p q, a = .un t x → T[i]? = some (.pre t p) → T[j]? = some (.pre s q) → i ≤ j) →
      Safe T A C (.un s a)
  | call {w es} : es ≠ [] → (∀ e ∈ es, Safe T A C e) → (∀ e ∈ es, ∀ k, Lev T e k → k ≤ A) →
      Safe T A C (.call w es)
  | list {es} : (∀ e ∈ es, Safe T A C e) → (∀ e ∈ es, ∀ k, Lev T e k → k ≤ C) → Safe T A C (.list es)

/-! ### Unambiguity of the grammar -/

theorem D.le {i : Nat} {ts : List Tok} {e : E} (h : D T A C i ts e) : i ≤ T.length := by
  cases h with
  | lift h _ => exact (List.getElem?_eq_some_iff.1 h).1
  | bin h _ _ => exact (List.getElem?_eq_some_iff.1 h).1
  | pre h _ => exact (List.getElem?_eq_some_iff.1 h).1
  | cmp h _ _ => exact (List.getElem?_eq_some_iff.1 h).1
  | _ => exact Nat.zero_le _

theorem D.mono {i j : Nat} {ts : List Tok} {e : E} (h : D T A C i ts e) (hij : i ≤ j)
    (hj : j ≤ T.length) : D T A C j ts e := by
  obtain ⟨k, rfl⟩ := Nat.exists_eq_add_of_le hij
  induction k with
  | zero => exact h
  | succ k ih =>
    have hlt : i + k < T.length := by omega
    exact D.lift (List.getElem?_eq_getElem hlt) (ih (by omega) (by omega))

/-- How a phrase can begin. -/
def Start (T : List Op) (i : Nat) : Tok → Prop
  | .word _ => True
  | .lp => True
  | .lb => True
  | .op s => ∃ j p, T[j]? = some (.pre s p) ∧ j < i
  | .rp => False
  | .rb => False

theorem Start.mono {i j : Nat} {t : Tok} (h : Start T i t) (hij : i ≤ j) : Start T j t := by
  cases t <;> simp_all [Start]
  obtain ⟨k, ⟨p, hp⟩, hk⟩ := h
  exact ⟨k, ⟨p, hp⟩, by omega⟩

theorem D.start (n : Nat) : ∀ {i : Nat} {ts : List Tok} {e : E}, ts.length ≤ n → D T A C i ts e →
    ∃ t r, ts = t :: r ∧ Start T i t := by
  induction n with
  | zero =>
    intro i
    induction i with
    | zero => intro ts e hn h; cases h <;> simp at hn
    | succ i ih =>
      intro ts e hn h
      cases h with
      | lift h h' =>
        obtain ⟨t, r, e, hs⟩ := ih hn h'
        exact ⟨t, r, e, hs.mono (Nat.le_succ _)⟩
      | bin h h1 h2 => simp at hn
      | pre h h1 => simp at hn
      | cmp h h1 h2 =>
        obtain ⟨t, r, e, hs⟩ := ih (by simp at hn; simp [hn]) h1
        exact ⟨t, _, by rw [e]; rfl, hs.mono (Nat.le_succ _)⟩
  | succ n ihn =>
    intro i
    induction i with
    | zero => intro ts e hn h; cases h <;> exact ⟨_, _, rfl, trivial⟩
    | succ i ih =>
      intro ts e hn h
      cases h with
      | lift h h' =>
        obtain ⟨t, r, e, hs⟩ := ih hn h'
        exact ⟨t, r, e, hs.mono (Nat.le_succ _)⟩
      | @bin _ s p a ts ts' _ _ h h1 h2 =>
        have hl : ts.length ≤ n := by simp at hn; omega
        obtain ⟨t, r, e, hs⟩ := ihn hl h1
        refine ⟨t, r ++ .op s :: ts', by rw [e]; rfl, hs.mono ?_⟩
        cases a <;> simp [lft]
      | pre h h1 => exact ⟨_, _, rfl, _, _, h, Nat.lt_succ_self _⟩
      | @cmp _ p ts _ rs _ h h1 h2 =>
        obtain ⟨t, r, e, hs⟩ := ih (by simp at hn; omega) h1
        exact ⟨t, r ++ rs, by rw [e]; rfl, hs.mono (Nat.le_succ _)⟩

/-- What follows a phrase of level `i` cannot continue it. -/
def Follow (T : List Op) (i : Nat) (r : List Tok) : Prop :=
  (∀ r', r ≠ .lp :: r') ∧ ∀ s r', r = .op s :: r' → ∀ j, At T j s → i ≤ j

theorem Follow.le {i j : Nat} {r : List Tok} (h : Follow T j r) (hij : i ≤ j) : Follow T i r :=
  ⟨h.1, fun s r' e k hk => le_trans hij (h.2 s r' e k hk)⟩

/-- A chain of operands of level `i` joined by operators: what a phrase of level `i + 1` is. -/
abbrev Link := String × List Tok × E

def links (l : List Link) : List Tok := l.flatMap fun x => .op x.1 :: x.2.1

def buildR (s : String) : E → List Link → E
  | e, [] => e
  | e, x :: l => mk s e (buildR s x.2.2 l)

/-- The term a chain stands for. -/
def build : Op → E → List Link → E
  | .bin s _ .R, e, l => buildR s e l
  | .bin s _ _, e, l => l.foldl (fun acc x => mk s acc x.2.2) e
  | .cmp _, e, l => conj e (l.map fun x => (x.1, x.2.2))
  | .pre _ _, e, _ => e

theorem rest_links : ∀ {i : Nat} (l : List (String × E)) {rs : List Tok}, Rest T A C i rs l →
    ∃ k : List Link, rs = links k ∧ l = k.map (fun x => (x.1, x.2.2)) ∧
      ∀ x ∈ k, x.1 ∈ cmps ∧ D T A C i x.2.1 x.2.2
  | i, [], rs, h => by cases h; exact ⟨[], rfl, rfl, by simp⟩
  | i, (s, e) :: l, rs, h => by
    cases h with
    | @cons _ _ ts _ rs _ hs hD hR =>
      obtain ⟨k, e1, e2, hk⟩ := rest_links l hR
      refine ⟨(s, ts, e) :: k, ?_, ?_, ?_⟩
      · rw [e1]; simp [links]
      · rw [e2]; simp
      · intro x hx
        rcases List.mem_cons.1 hx with rfl | hx
        · exact ⟨hs, hD⟩
        · exact hk x hx

theorem chain {o : Op} {i : Nat} (ho : T[i]? = some o) (hp : ∀ s p, o ≠ .pre s p) (n : Nat) :
    ∀ {ts : List Tok} {e : E}, ts.length ≤ n → D T A C (i + 1) ts e →
    ∃ t0 e0, ∃ l : List Link, D T A C i t0 e0 ∧ ts = t0 ++ links l ∧ e = build o e0 l ∧
      ∀ x ∈ l, x.1 ∈ o.syms ∧ D T A C i x.2.1 x.2.2 := by
  induction n with
  | zero =>
    intro ts e hn h
    obtain ⟨t, r, rfl, _⟩ := D.start 0 hn h
    simp at hn
  | succ n ih =>
    intro ts e hn h
    cases h with
    | lift h h' =>
      refine ⟨ts, e, [], h', by simp [links], ?_, by simp⟩
      cases o with
      | bin s p a => cases a <;> rfl
      | pre s p => exact absurd rfl (hp s p)
      | cmp p => rfl
    | @bin _ s p a ts ts' e e' h h1 h2 =>
      rw [ho] at h
      cases h
      cases a with
      | L =>
        obtain ⟨t0, e0, l, h0, e1, e2, hl⟩ := ih (by simp at hn; omega) h1
        refine ⟨t0, e0, l ++ [(s, ts', e')], h0, ?_, ?_, ?_⟩
        · rw [e1]; simp [links]
        · rw [e2]; simp [build]
        · intro x hx
          rcases List.mem_append.1 hx with hx | hx
          · exact hl x hx
          · rw [List.mem_singleton.1 hx]; exact ⟨by simp [Op.syms], h2⟩
      | R =>
        obtain ⟨t0, e0, l, h0, e1, e2, hl⟩ := ih (by simp at hn; omega) h2
        refine ⟨ts, e, (s, t0, e0) :: l, h1, ?_, ?_, ?_⟩
        · rw [e1]; simp [links]
        · rw [e2]; simp [build, buildR]
        · intro x hx
          rcases List.mem_cons.1 hx with rfl | hx
          · exact ⟨by simp [Op.syms], h0⟩
          · exact hl x hx
      | N =>
        refine ⟨ts, e, [(s, ts', e')], h1, by simp [links], by simp [build], ?_⟩
        intro x hx
        rw [List.mem_singleton.1 hx]; exact ⟨by simp [Op.syms], h2⟩
    | pre h h1 => rw [ho] at h; cases h; exact absurd rfl (hp _ _)
    | @cmp _ p ts e rs l h h1 h2 =>
      rw [ho] at h
      cases h
      obtain ⟨k, e1, e2, hk⟩ := rest_links l h2
      exact ⟨ts, e, k, h1, by rw [e1], by rw [e2]; rfl, hk⟩

/-- Phrases of level `i`, of length at most `n`, are determined by the text they begin. -/
def Uniq (T : List Op) (A C n i : Nat) : Prop :=
  ∀ {ts ts' : List Tok} {e e' : E} {r r' : List Tok}, ts.length ≤ n → D T A C i ts e →
    D T A C i ts' e' → ts ++ r = ts' ++ r' → Follow T i r → Follow T i r' → ts = ts' ∧ e = e' ∧ r = r'

theorem follow_links (V : Valid T A C) {o : Op} {i : Nat} (ho : T[i]? = some o) {l : List Link}
    (hl : ∀ x ∈ l, x.1 ∈ o.syms) {r : List Tok} (hr : Follow T (i + 1) r) :
    Follow T i (links l ++ r) := by
  cases l with
  | nil => exact hr.le (Nat.le_succ _)
  | cons x l =>
    refine ⟨fun r' h => by simp [links] at h, fun s r' h j hj => ?_⟩
    simp only [links, List.flatMap_cons, List.cons_append, List.cons.injEq, Tok.op.injEq] at h
    obtain ⟨o', ho', hs⟩ := hj
    exact le_of_eq (V.syms i j o o' s ho ho' (h.1 ▸ hl x List.mem_cons_self) hs)

theorem links_uniq (V : Valid T A C) {o : Op} {n i : Nat} (hu : Uniq T A C n i) (ho : T[i]? = some o) :
    ∀ {l l' : List Link} {r r' : List Tok}, (links l).length ≤ n →
      (∀ x ∈ l, x.1 ∈ o.syms ∧ D T A C i x.2.1 x.2.2) → (∀ x ∈ l', x.1 ∈ o.syms ∧ D T A C i x.2.1 x.2.2) →
      links l ++ r = links l' ++ r' → Follow T (i + 1) r → Follow T (i + 1) r' → l = l' ∧ r = r'
  | [], [], r, r', _, _, _, h, _, _ => ⟨rfl, h⟩
  | [], x :: l', r, r', _, _, hl', h, hr, _ => by
    simp only [links, List.flatMap_nil, List.nil_append, List.flatMap_cons, List.cons_append] at h
    have := hr.2 x.1 _ h i ⟨o, ho, (hl' x List.mem_cons_self).1⟩
    omega
  | x :: l, [], r, r', _, hl, _, h, _, hr' => by
    simp only [links, List.flatMap_nil, List.nil_append, List.flatMap_cons, List.cons_append] at h
    have := hr'.2 x.1 _ h.symm i ⟨o, ho, (hl x List.mem_cons_self).1⟩
    omega
  | x :: l, y :: l', r, r', hn, hl, hl', h, hr, hr' => by
    have h2 : links (x :: l) = .op x.1 :: (x.2.1 ++ links l) := by simp [links]
    have h3 : links (y :: l') = .op y.1 :: (y.2.1 ++ links l') := by simp [links]
    rw [h2, h3] at h
    rw [h2] at hn
    simp only [List.cons_append, List.append_assoc, List.cons.injEq, Tok.op.injEq] at h
    simp only [List.length_cons, List.length_append] at hn
    obtain ⟨a1, a2, a3⟩ := hu (by omega) (hl x List.mem_cons_self).2 (hl' y List.mem_cons_self).2 h.2
      (follow_links V ho (fun z hz => (hl z (List.mem_cons_of_mem _ hz)).1) hr)
      (follow_links V ho (fun z hz => (hl' z (List.mem_cons_of_mem _ hz)).1) hr')
    obtain ⟨b1, b2⟩ := links_uniq V hu ho (by omega) (fun z hz => hl z (List.mem_cons_of_mem _ hz))
      (fun z hz => hl' z (List.mem_cons_of_mem _ hz)) a3 hr hr'
    refine ⟨?_, b2⟩
    rw [b1]
    congr 1
    exact Prod.ext h.1 (Prod.ext a1 a2)

/-- The end of an argument list: a closing bracket, or a last comma and a closing bracket. -/
def Close (r : List Tok) : Prop :=
  ∃ q, r = .rp :: q ∨ r = .rb :: q ∨ r = .op "," :: .rp :: q

theorem close_follow (V : Valid T A C) {i : Nat} (hi : i = A ∨ i = C) {r : List Tok} (h : Close r) :
    Follow T i r := by
  obtain ⟨q, rfl | rfl | rfl⟩ := h
  · exact ⟨fun _ h => by simp at h, fun _ _ h => by simp at h⟩
  · exact ⟨fun _ h => by simp at h, fun _ _ h => by simp at h⟩
  · refine ⟨fun _ h => by simp at h, fun s r' h j ⟨o, ho, hs⟩ => ?_⟩
    simp only [List.cons.injEq, Tok.op.injEq] at h
    have := V.args j o ho (h.1 ▸ hs)
    rcases hi with rfl | rfl
    · exact this.1
    · exact this.2

theorem comma_follow (V : Valid T A C) {i : Nat} (hi : i = A ∨ i = C) (r : List Tok) :
    Follow T i (.op "," :: r) := by
  refine ⟨fun _ h => by simp at h, fun s r' h j ⟨o, ho, hs⟩ => ?_⟩
  simp only [List.cons.injEq, Tok.op.injEq] at h
  have := V.args j o ho (h.1 ▸ hs)
  rcases hi with rfl | rfl
  · exact this.1
  · exact this.2

theorem Args.start {i : Nat} {ts : List Tok} {es : List E} (h : Args T A C i ts es) :
    ∃ t r, ts = t :: r ∧ Start T i t := by
  cases h with
  | one h => exact D.start _ le_rfl h
  | @cons _ ts e ts' es h h' =>
    obtain ⟨t, r, e, hs⟩ := D.start _ le_rfl h
    exact ⟨t, r ++ .op "," :: ts', by rw [e]; rfl, hs⟩

/-- No phrase starts with what closes an argument list. -/
theorem not_start_close (V : Valid T A C) {i : Nat} {t : Tok} {r q : List Tok} (hs : Start T i t)
    (hc : Close (t :: r)) : q = q → False := by
  intro _
  obtain ⟨q, h | h | h⟩ := hc <;> simp only [List.cons.injEq] at h <;> obtain ⟨rfl, _⟩ := h
  · exact hs
  · exact hs
  · obtain ⟨j, p, hj, _⟩ := hs
    exact V.comma j p hj

theorem args_uniq (V : Valid T A C) {n i : Nat} (hi : i = A ∨ i = C) (hu : Uniq T A C n i) :
    ∀ (es es' : List E) {ts ts' : List Tok} {r r' : List Tok}, ts.length ≤ n → Args T A C i ts es →
      Args T A C i ts' es' → ts ++ r = ts' ++ r' → Close r → Close r' → ts = ts' ∧ es = es' ∧ r = r'
  | [], _, _, _, _, _, _, h, _, _, _, _ => by cases h
  | _, [], _, _, _, _, _, _, h, _, _, _ => by cases h
  | [e], [e'], ts, ts', r, r', hn, h, h', he, hc, hc' => by
    cases h with
    | cons _ h => cases h
    | one h =>
    cases h' with
    | cons _ h => cases h
    | one h' =>
    obtain ⟨a, b, c⟩ := hu hn h h' he (close_follow V hi hc) (close_follow V hi hc')
    exact ⟨a, by rw [b], c⟩
  | [e], e' :: f' :: es', ts, ts', r, r', hn, h, h', he, hc, hc' => by
    exfalso
    cases h with
    | cons _ h => cases h
    | one h =>
    cases h' with
    | @cons _ t1 _ t2 _ h1 h2 =>
    rw [List.append_assoc] at he
    obtain ⟨a, b, c⟩ := hu hn h h1 he (close_follow V hi hc) (comma_follow V hi _)
    obtain ⟨t, q, e1, hs⟩ := h2.start
    obtain ⟨q', hq | hq | hq⟩ := hc
    · rw [hq] at c; simp at c
    · rw [hq] at c; simp at c
    · rw [hq, e1] at c
      simp only [List.cons_append, List.cons.injEq, true_and] at c
      rw [← c.1] at hs
      exact hs
  | e :: f :: es, [e'], ts, ts', r, r', hn, h, h', he, hc, hc' => by
    exfalso
    cases h' with
    | cons _ h => cases h
    | one h' =>
    cases h with
    | @cons _ t1 _ t2 _ h1 h2 =>
    rw [List.append_assoc] at he
    obtain ⟨a, b, c⟩ := hu (by simp at hn; omega) h1 h' he (comma_follow V hi _) (close_follow V hi hc')
    obtain ⟨t, q, e1, hs⟩ := h2.start
    obtain ⟨q', hq | hq | hq⟩ := hc'
    · rw [hq] at c; simp at c
    · rw [hq] at c; simp at c
    · rw [hq, e1] at c
      simp only [List.cons_append, List.cons.injEq, true_and] at c
      rw [c.1] at hs
      exact hs
  | e :: f :: es, e' :: f' :: es', ts, ts', r, r', hn, h, h', he, hc, hc' => by
    cases h with
    | @cons _ t1 _ t2 _ h1 h2 =>
    cases h' with
    | @cons _ s1 _ s2 _ h1' h2' =>
    rw [List.append_assoc, List.append_assoc] at he
    simp only [List.length_append, List.length_cons] at hn
    obtain ⟨a, b, c⟩ := hu (by omega) h1 h1' he (comma_follow V hi _) (comma_follow V hi _)
    simp only [List.cons_append, List.cons.injEq, true_and] at c
    obtain ⟨a', b', c'⟩ := args_uniq V hi hu (f :: es) (f' :: es') (by omega) h2 h2' c hc hc'
    exact ⟨by rw [a, a'], by rw [b, b'], c'⟩

/-- What a phrase of level zero is. -/
theorem D.inv0 {ts : List Tok} {e : E} (h : D T A C 0 ts e) :
    (∃ w, ts = [.word w] ∧ e = .atom w) ∨
    (∃ w, ts = [.word w, .lp, .rp] ∧ e = .atom w) ∨
    (∃ w b es m, ts = .word w :: .lp :: (b ++ m) ∧ (m = [.rp] ∨ m = [.op ",", .rp]) ∧
      Args T A C A b es ∧ e = .call w es) ∨
    (∃ b, ts = .lp :: (b ++ [.rp]) ∧ D T A C T.length b e) ∨
    (ts = [.lb, .rb] ∧ e = .list []) ∨
    (∃ b es, ts = .lb :: (b ++ [.rb]) ∧ Args T A C C b es ∧ e = .list es) := by
  cases h with
  | word w => exact .inl ⟨w, rfl, rfl⟩
  | paren h => exact .inr (.inr (.inr (.inl ⟨_, rfl, h⟩)))
  | call0 w => exact .inr (.inl ⟨w, rfl, rfl⟩)
  | call h => exact .inr (.inr (.inl ⟨_, _, _, _, rfl, .inl rfl, h, rfl⟩))
  | callc h => exact .inr (.inr (.inl ⟨_, _, _, _, rfl, .inr rfl, h, rfl⟩))
  | list0 => exact .inr (.inr (.inr (.inr (.inl ⟨rfl, rfl⟩))))
  | list h => exact .inr (.inr (.inr (.inr (.inr ⟨_, _, rfl, h, rfl⟩))))

theorem top_follow (r : List Tok) : Follow T T.length (.rp :: r) :=
  ⟨fun _ h => by simp at h, fun _ _ h => by simp at h⟩

theorem uniq0 (V : Valid T A C) {n : Nat} (hu : ∀ i, Uniq T A C n i) : Uniq T A C (n + 1) 0 := by
  intro ts ts' e e' r r' hn h h' he hf hf'
  have hclose : ∀ {m : List Tok} (r : List Tok), (m = [.rp] ∨ m = [.op ",", .rp]) → Close (m ++ r) := by
    rintro m r (rfl | rfl)
    · exact ⟨r, .inl rfl⟩
    · exact ⟨r, .inr (.inr rfl)⟩
  rcases h.inv0 with ⟨w, rfl, rfl⟩ | ⟨w, rfl, rfl⟩ | ⟨w, b, es, m, rfl, hm, hA, rfl⟩ | ⟨b, rfl, hD⟩ |
      ⟨rfl, rfl⟩ | ⟨b, es, rfl, hA, rfl⟩ <;>
    rcases h'.inv0 with ⟨w', rfl, rfl⟩ | ⟨w', rfl, rfl⟩ | ⟨w', b', es', m', rfl, hm', hA', rfl⟩ |
      ⟨b', rfl, hD'⟩ | ⟨rfl, rfl⟩ | ⟨b', es', rfl, hA', rfl⟩ <;>
    simp only [List.cons_append, List.nil_append, List.cons.injEq, Tok.word.injEq, true_and,
      reduceCtorEq, false_and, List.append_assoc] at he
  · exact ⟨by rw [he.1], by rw [he.1], he.2⟩
  · exact absurd he.2 (hf.1 _)
  · exact absurd he.2 (hf.1 _)
  · exact absurd he.2.symm (hf'.1 _)
  · exact ⟨by rw [he.1], by rw [he.1], he.2⟩
  · exfalso
    obtain ⟨t, q, e1, hs⟩ := hA'.start
    rw [e1] at he
    simp only [List.cons_append, List.cons.injEq] at he
    rw [← he.2.1] at hs; exact hs
  · exact absurd he.2.symm (hf'.1 _)
  · exfalso
    obtain ⟨t, q, e1, hs⟩ := hA.start
    rw [e1] at he
    simp only [List.cons_append, List.cons.injEq] at he
    rw [he.2.1] at hs; exact hs
  · simp only [List.length_cons, List.length_append] at hn
    obtain ⟨a1, a2, a3⟩ := args_uniq V (.inl rfl) (hu A) es es' (by omega) hA hA' he.2
      (hclose r hm) (hclose r' hm')
    have : m = m' ∧ r = r' := by
      rcases hm with rfl | rfl <;> rcases hm' with rfl | rfl <;> simp_all
    exact ⟨by rw [he.1, a1, this.1], by rw [he.1, a2], this.2⟩
  · simp only [List.length_cons, List.length_append] at hn
    obtain ⟨a1, a2, a3⟩ := hu _ (by omega) hD hD' he (top_follow _) (top_follow _)
    simp only [List.nil_append, List.cons.injEq, true_and] at a3
    exact ⟨by rw [a1], a2, a3⟩
  · exact ⟨rfl, rfl, he⟩
  · exfalso
    obtain ⟨t, q, e1, hs⟩ := hA'.start
    rw [e1] at he
    simp only [List.cons_append, List.cons.injEq] at he
    rw [← he.1] at hs; exact hs
  · exfalso
    obtain ⟨t, q, e1, hs⟩ := hA.start
    rw [e1] at he
    simp only [List.cons_append, List.cons.injEq] at he
    rw [he.1] at hs; exact hs
  · simp only [List.length_cons, List.length_append] at hn
    obtain ⟨a1, a2, a3⟩ := args_uniq V (.inr rfl) (hu C) es es' (by omega) hA hA' he
      ⟨r, .inr (.inl rfl)⟩ ⟨r', .inr (.inl rfl)⟩
    simp only [List.nil_append, List.cons.injEq, true_and] at a3
    exact ⟨by rw [a1], by rw [a2], a3⟩

theorem uniq_step (V : Valid T A C) {n i : Nat} (hn : Uniq T A C n (i + 1)) (hi : Uniq T A C (n + 1) i) :
    Uniq T A C (n + 1) (i + 1) := by
  intro ts ts' e e' r r' hlen h h' he hf hf'
  have hlt := h.le
  obtain ⟨o, ho⟩ : ∃ o, T[i]? = some o := ⟨_, List.getElem?_eq_getElem (by omega)⟩
  by_cases hp : ∃ s p, o = .pre s p
  · obtain ⟨s, p, rfl⟩ := hp
    have inv : ∀ {ts e}, D T A C (i + 1) ts e →
        D T A C i ts e ∨ ∃ q x, ts = .op s :: q ∧ e = .un s x ∧ D T A C (i + 1) q x := by
      intro ts e h
      cases h with
      | lift _ h => exact .inl h
      | bin h _ _ => rw [ho] at h; cases h
      | pre h h' => rw [ho] at h; cases h; exact .inr ⟨_, _, rfl, rfl, h'⟩
      | cmp h _ _ => rw [ho] at h; cases h
    have nostart : ∀ {ts e q r r'}, D T A C i ts e → ts ++ r = .op s :: q ++ r' → False := by
      intro ts e q r r' h he
      obtain ⟨t, q', rfl, hs⟩ := D.start _ le_rfl h
      simp only [List.cons_append, List.cons.injEq] at he
      rw [he.1] at hs
      obtain ⟨j, p', hj, hlt⟩ := hs
      have := V.pres i j s p p' ho hj
      omega
    rcases inv h with h | ⟨q, x, rfl, rfl, g⟩ <;> rcases inv h' with h' | ⟨q', x', rfl, rfl, g'⟩
    · exact hi hlen h h' he (hf.le (Nat.le_succ _)) (hf'.le (Nat.le_succ _))
    · exact absurd he fun he => nostart h he
    · exact absurd he.symm fun he => nostart h' he
    · simp only [List.cons_append, List.cons.injEq, true_and] at he
      have hlen' : q.length ≤ n := by simpa using hlen
      obtain ⟨a1, a2, a3⟩ := hn hlen' g g' he hf hf'
      exact ⟨by rw [a1], by rw [a2], a3⟩
  · have hp' : ∀ s p, o ≠ .pre s p := fun s p h => hp ⟨s, p, h⟩
    obtain ⟨t0, e0, l, h0, rfl, rfl, hl⟩ := chain ho hp' _ le_rfl h
    obtain ⟨t0', e0', l', h0', rfl, rfl, hl'⟩ := chain ho hp' _ le_rfl h'
    rw [List.append_assoc, List.append_assoc] at he
    simp only [List.length_append] at hlen
    obtain ⟨a1, a2, a3⟩ := hi (by omega) h0 h0' he (follow_links V ho (fun x hx => (hl x hx).1) hf)
      (follow_links V ho (fun x hx => (hl' x hx).1) hf')
    obtain ⟨b1, b2⟩ := links_uniq V hi ho (by omega) hl hl' a3 hf hf'
    exact ⟨by rw [a1, b1], by rw [a2, b1], b2⟩

theorem uniq (V : Valid T A C) : ∀ n i, Uniq T A C n i
  | 0, i => by
    intro hn h _ _ _ _
    obtain ⟨t, q, e, _⟩ := D.start _ le_rfl h
    rw [e] at hn
    simp at hn
  | n + 1, 0 => uniq0 V (uniq V n)
  | n + 1, i + 1 => uniq_step V (uniq V n (i + 1)) (uniq V (n + 1) i)

/-- **C44, the grammar is unambiguous.**  A text has at most one reading. -/
theorem C44_unambiguous (V : Valid T A C) {ts : List Tok} {e e' : E} (h : D T A C T.length ts e)
    (h' : D T A C T.length ts e') : e = e' := by
  have hf : Follow T T.length [] := ⟨fun _ h => by simp at h, fun _ _ h => by simp at h⟩
  exact (uniq V ts.length T.length (r := []) (r' := []) le_rfl h h' rfl hf hf).2.1

/-! ### What the printer writes is read back -/

theorem E.ind {P : E → Prop} (ha : ∀ w, P (.atom w)) (hb : ∀ s a b, P a → P b → P (.bin s a b))
    (hu : ∀ s a, P a → P (.un s a)) (hc : ∀ w es, (∀ e ∈ es, P e) → P (.call w es))
    (hl : ∀ es, (∀ e ∈ es, P e) → P (.list es)) : ∀ e, P e := by
  intro e
  refine E.rec (motive_1 := P) (motive_2 := fun es => ∀ e ∈ es, P e) ha hb hu hc hl ?_ ?_ e
  · simp
  · intro a as h1 h2 t ht
    rcases List.mem_cons.1 ht with rfl | ht
    · exact h1
    · exact h2 t ht

theorem binop_some {s : String} {p : Nat} {aa : Option Assoc} (h : binop T s = some (p, aa)) :
    ∃ i : Nat, (∃ a, aa = some a ∧ T[i]? = some (.bin s p a)) ∨
      (aa = none ∧ T[i]? = some (.cmp p) ∧ s ∈ cmps) := by
  obtain ⟨o, ho, hf⟩ := List.exists_of_findSome?_eq_some h
  obtain ⟨i, hi⟩ := List.mem_iff_getElem?.1 ho
  refine ⟨i, ?_⟩
  cases o with
  | bin s' p' a =>
    simp only [Option.ite_none_right_eq_some, Option.some.injEq, Prod.mk.injEq] at hf
    obtain ⟨rfl, rfl, rfl⟩ := hf
    exact .inl ⟨a, rfl, hi⟩
  | pre s' p' => cases hf
  | cmp p' =>
    simp only [Option.ite_none_right_eq_some, Option.some.injEq, Prod.mk.injEq] at hf
    obtain ⟨h1, rfl, rfl⟩ := hf
    exact .inr ⟨rfl, hi, h1⟩

theorem binop_none {s : String} (h : binop T s = none) (i : Nat) : ¬ At T i s := by
  rintro ⟨o, ho, hs⟩
  have := List.findSome?_eq_none_iff.1 h o (List.mem_of_getElem? ho)
  cases o with
  | bin s' p a =>
    simp only [Op.syms, List.mem_singleton] at hs
    simp [hs] at this
  | pre s' p => simp [Op.syms] at hs
  | cmp p =>
    simp only [Op.syms] at hs
    simp [hs] at this

/-- Level of an operand next to the operator at index `i`, on the side where `bare` needs no
parentheses. -/
def side (bare : Assoc) (o : Op) (i : Nat) : Nat :=
  match o with
  | .bin _ _ a => if a = bare then i + 1 else i
  | _ => i

/-- An operand as printed can be read at the level its place demands. -/
theorem wrap_ok (V : Valid T A C) {s : String} {o : Op} {i : Nat} (ho : T[i]? = some o) (hs : s ∈ o.syms)
    {bare : Assoc} {a : E} {ta ta' : List Tok} {k : Nat} (hk : Lev T a k) (hD : D T A C k ta a)
    (hw : wrap T s bare a ta = some ta')
    (hsafe : ∀ (i j : Nat) t x y p q c, a = .bin t x y → T[i]? = some (.bin t p bare) →
      T[j]? = some (.bin s q c) → p = q → i ≤ j) : D T A C (side bare o i) ta' a := by
  have hlt : i < T.length := (List.getElem?_eq_some_iff.1 ho).1
  have hside : i ≤ side bare o i ∧ side bare o i ≤ T.length := by
    unfold side
    split
    · split <;> omega
    · omega
  have hpar : D T A C (side bare o i) (.lp :: (ta ++ [.rp])) a :=
    (D.paren (hD.mono hD.le le_rfl)).mono (Nat.zero_le _) hside.2
  have hbare : k ≤ side bare o i → D T A C (side bare o i) ta a := fun h => hD.mono h hside.2
  -- the operand is an operator term
  by_cases hb : ∃ t x y, a = .bin t x y
  · obtain ⟨t, x, y, rfl⟩ := hb
    cases hk with
    | @bin _ j _ _ hj =>
    obtain ⟨o', ho', ht⟩ := hj
    unfold wrap at hw
    simp only [E.fn] at hw
    cases h1 : binop T t with
    | none => exact absurd ⟨o', ho', ht⟩ (binop_none h1 j)
    | some pa =>
    cases h2 : binop T s with
    | none => exact absurd ⟨o, ho, hs⟩ (binop_none h2 i)
    | some px =>
    obtain ⟨pa, aa⟩ := pa
    obtain ⟨px, ax⟩ := px
    rw [h1, h2] at hw
    simp only at hw
    have ea : o'.prio = pa ∧ (∀ c, aa = some c → o' = .bin t pa c) := by
      obtain ⟨j', hj' | hj'⟩ := binop_some h1
      · obtain ⟨c, rfl, hj'⟩ := hj'
        have := V.syms j j' _ _ t ho' hj' ht (by simp [Op.syms])
        subst this
        rw [hj'] at ho'
        cases ho'
        exact ⟨rfl, fun c' h => by cases h; rfl⟩
      · obtain ⟨rfl, hj', hc⟩ := hj'
        have := V.syms j j' _ _ t ho' hj' ht hc
        subst this
        rw [hj'] at ho'
        cases ho'
        exact ⟨rfl, fun c' h => by cases h⟩
    have ex : o.prio = px := by
      obtain ⟨j', hj' | hj'⟩ := binop_some h2
      · obtain ⟨c, rfl, hj'⟩ := hj'
        have := V.syms i j' _ _ s ho hj' hs (by simp [Op.syms])
        subst this
        rw [hj'] at ho
        cases ho
        rfl
      · obtain ⟨rfl, hj', hc⟩ := hj'
        have := V.syms i j' _ _ s ho hj' hs hc
        subst this
        rw [hj'] at ho
        cases ho
        rfl
    by_cases hle : pa ≤ px
    · rw [if_pos hle] at hw
      by_cases heq : pa = px
      · rw [if_pos heq] at hw
        cases aa with
        | none => cases hw
        | some c =>
          simp only [Option.some.injEq] at hw
          by_cases hc : c = bare
          · rw [if_pos hc] at hw
            subst hw hc
            have ho'' := ea.2 c rfl
            subst ho''
            -- the operator is not a comparison
            cases o with
            | pre s' p' => simp [Op.syms] at hs
            | cmp p' =>
              exfalso
              simp only [Op.prio] at ex
              exact V.cmpPrio i j t p' pa c ho ho' (by rw [ex, heq])
            | bin s' p' c' =>
              simp only [Op.syms, List.mem_singleton] at hs
              subst hs
              simp only [Op.prio] at ex
              have hji := hsafe j i t x y pa p' c' rfl ho' ho (by rw [heq, ex])
              refine hbare ?_
              rcases Nat.lt_or_eq_of_le hji with h | h
              · exact le_trans h hside.1
              · subst h
                rw [ho] at ho'
                cases ho'
                simp [side]
          · rw [if_neg hc] at hw
            subst hw
            exact hpar
      · rw [if_neg heq] at hw
        cases hw
        exact hpar
    · rw [if_neg hle] at hw
      cases hw
      refine hbare (le_trans ?_ hside.1)
      by_contra hcon
      rcases Nat.lt_or_eq_of_le (Nat.le_of_lt_succ (Nat.lt_of_not_le hcon)) with h | h
      · have := V.sorted i j o o' ho ho' h; omega
      · subst h
        rw [ho] at ho'
        cases ho'
        omega
  · -- any other operand can stand anywhere
    have hki : k ≤ i := by
      cases hk with
      | atom w => exact Nat.zero_le _
      | call w es => exact Nat.zero_le _
      | list es => exact Nat.zero_le _
      | bin h => exact absurd ⟨_, _, _, rfl⟩ hb
      | un h => exact V.first _ _ _ _ _ _ h ho hs
    have hb' := hbare (le_trans hki hside.1)
    unfold wrap at hw
    split at hw
    · split at hw
      · split at hw
        · split at hw
          · cases hw
          · simp only [Option.some.injEq] at hw
            split at hw <;> subst hw <;> assumption
        · cases hw; exact hpar
      · cases hw; exact hb'
    · cases hw; exact hb'

theorem prs_some {es : List E} {l : List (List Tok)} (h : prs T es = some l) :
    List.Forall₂ (fun e t => pr T e = some t) es l := by
  induction es generalizing l with
  | nil => simp only [prs, Option.some.injEq] at h; subst h; exact .nil
  | cons e es ih =>
    simp only [prs] at h
    cases h1 : pr T e with
    | none => rw [h1] at h; cases h
    | some t =>
      cases h2 : prs T es with
      | none => rw [h1, h2] at h; cases h
      | some ts =>
        rw [h1, h2] at h
        cases h
        exact .cons h1 (ih h2)

theorem args_of {i : Nat} : ∀ {es : List E} {l : List (List Tok)}, es ≠ [] →
    List.Forall₂ (fun e t => D T A C i t e) es l → Args T A C i (joinC l) es
  | _, _, hne, .nil => absurd rfl hne
  | _, _, _, .cons h .nil => .one h
  | _, _, _, .cons h (.cons h1 h2) => .cons h (args_of (by simp) (.cons h1 h2))

theorem print_derives (V : Valid T A C) (e : E) : ∀ {ts : List Tok}, Safe T A C e → pr T e = some ts →
    ∃ k, Lev T e k ∧ D T A C k ts e := by
  induction e using E.ind with
  | ha w =>
    intro ts _ h
    simp only [pr, Option.some.injEq] at h
    subst h
    exact ⟨0, .atom w, .word w⟩
  | hb s a b iha ihb =>
    intro ts hs h
    cases hs with
    | bin sa sb hfor hl hr =>
    simp only [pr] at h
    cases h0 : binop T s with
    | none => rw [h0] at h; cases h
    | some px =>
    cases h1 : pr T a with
    | none => rw [h0, h1] at h; cases h
    | some ta =>
    cases h2 : pr T b with
    | none => rw [h0, h1, h2] at h; cases h
    | some tb =>
    rw [h0, h1, h2] at h
    simp only at h
    cases h3 : wrap T s .L a ta with
    | none => rw [h3] at h; cases h
    | some ta' =>
    cases h4 : wrap T s .R b tb with
    | none => rw [h3, h4] at h; cases h
    | some tb' =>
    rw [h3, h4] at h
    simp only [Option.some.injEq] at h
    subst h
    obtain ⟨ka, hka, hDa⟩ := iha sa h1
    obtain ⟨kb, hkb, hDb⟩ := ihb sb h2
    obtain ⟨px, aa⟩ := px
    obtain ⟨i, hi⟩ := binop_some h0
    rcases hi with ⟨c, rfl, hi⟩ | ⟨rfl, hi, hc⟩
    · have hm : s ∈ (Op.bin s px c).syms := by simp [Op.syms]
      refine ⟨i + 1, .bin ⟨_, hi, hm⟩, ?_⟩
      have e1 := wrap_ok V hi hm hka hDa h3 hl
      have e2 := wrap_ok V hi hm hkb hDb h4 hr
      have : E.bin s a b = mk s a b := by simp [mk, hfor]
      rw [this]
      refine .bin hi ?_ ?_
      · cases c <;> simpa [side, lft] using e1
      · cases c <;> simpa [side, rgt] using e2
    · refine ⟨i + 1, .bin ⟨_, hi, hc⟩, ?_⟩
      have e1 := wrap_ok V hi (s := s) hc hka hDa h3 hl
      have e2 := wrap_ok V hi (s := s) hc hkb hDb h4 hr
      simp only [side] at e1 e2
      have := D.cmp hi e1 (.cons hc e2 .nil)
      simpa [conj, conjGo] using this
  | hu s a ih =>
    intro ts hs h
    cases hs with
    | un sa hun =>
    simp only [pr] at h
    by_cases hp : isPre T s = true
    · rw [if_pos hp] at h
      obtain ⟨j, p, hj⟩ : ∃ (j : Nat) (p : Nat), T[j]? = some (.pre s p) := by
        obtain ⟨o, ho, hf⟩ := List.any_eq_true.1 hp
        obtain ⟨j, hj⟩ := List.mem_iff_getElem?.1 ho
        cases o with
        | pre s' p =>
          simp only [beq_iff_eq] at hf
          subst hf
          exact ⟨j, p, hj⟩
        | bin _ _ _ => cases hf
        | cmp _ => cases hf
      have hlt : j < T.length := (List.getElem?_eq_some_iff.1 hj).1
      refine ⟨j + 1, .un hj, ?_⟩
      cases h1 : pr T a with
      | none => rw [h1] at h; cases h
      | some ta =>
      rw [h1] at h
      obtain ⟨k, hk, hD⟩ := ih sa h1
      have hpar : D T A C (j + 1) (.lp :: (ta ++ [.rp])) a :=
        (D.paren (hD.mono hD.le le_rfl)).mono (Nat.zero_le _) hlt
      cases hk with
      | atom w => cases h; exact .pre hj (hD.mono (Nat.zero_le _) hlt)
      | call w es => cases h; exact .pre hj (hD.mono (Nat.zero_le _) hlt)
      | list es => cases h; exact .pre hj (hD.mono (Nat.zero_le _) hlt)
      | @bin t i x y hi =>
        simp only at h
        have : (binop T t).isSome = true := by
          cases hb : binop T t with
          | none => exact absurd hi (binop_none hb i)
          | some _ => rfl
        rw [if_pos this] at h
        cases h
        exact .pre hj hpar
      | @un t i q x hi =>
        cases h
        have := hun i j t x q p rfl hi hj
        exact .pre hj (hD.mono (by omega) hlt)
    · rw [if_neg hp] at h; cases h
  | hc w es ih =>
    intro ts hs h
    cases hs with
    | call hne hs hlv =>
    simp only [pr, Option.map_eq_some_iff] at h
    obtain ⟨l, hl, rfl⟩ := h
    refine ⟨0, .call w es, .call (args_of hne ?_)⟩
    have := prs_some hl
    refine List.forall₂_iff_get.2 ⟨this.length_eq, fun i h1 h2 => ?_⟩
    have hmem : es.get ⟨i, h1⟩ ∈ es := List.get_mem _ _
    obtain ⟨k, hk, hD⟩ := ih _ hmem (hs _ hmem) (List.forall₂_iff_get.1 this |>.2 i h1 h2)
    exact hD.mono (hlv _ hmem k hk) V.top.1
  | hl es ih =>
    intro ts hs h
    cases hs with
    | list hs hlv =>
    simp only [pr, Option.map_eq_some_iff] at h
    obtain ⟨l, hl, rfl⟩ := h
    refine ⟨0, .list es, ?_⟩
    by_cases hne : es = []
    · subst hne
      simp only [prs, Option.some.injEq] at hl
      subst hl
      exact .list0
    · refine .list (args_of hne ?_)
      have := prs_some hl
      refine List.forall₂_iff_get.2 ⟨this.length_eq, fun i h1 h2 => ?_⟩
      have hmem : es.get ⟨i, h1⟩ ∈ es := List.get_mem _ _
      obtain ⟨k, hk, hD⟩ := ih _ hmem (hs _ hmem) (List.forall₂_iff_get.1 this |>.2 i h1 h2)
      exact hD.mono (hlv _ hmem k hk) V.top.2

/-- **C44, round trip.**  The printed form of a safe term parses, as that term and as no other. -/
theorem C44_roundtrip (V : Valid T A C) {e : E} (hs : Safe T A C e) {ts : List Tok}
    (h : pr T e = some ts) :
    D T A C T.length ts e ∧ ∀ e', D T A C T.length ts e' → e' = e := by
  obtain ⟨k, _, hD⟩ := print_derives V e hs h
  have := hD.mono hD.le le_rfl
  exact ⟨this, fun e' h' => C44_unambiguous V h' this⟩

/-! ### The table of the code -/

/-- The operator table of the code, sorted. -/
def T0 : List Op := table ops

/-- The token of a prefix operator, and of an ordinary binary operator. -/
def Op.preSym : Op → Option String
  | .pre s _ => some s
  | _ => none
def Op.binSym : Op → Option String
  | .bin s _ _ => some s
  | _ => none

/-- **C44, the real table** meets the assumptions. -/
theorem C44_table : Valid T0 (argLevel T0) (itemLevel T0) := by
  have hlen : ∀ {i : Nat} {o : Op}, T0[i]? = some o → ∃ h : i < T0.length, T0[i] = o := fun h =>
    List.getElem?_eq_some_iff.1 h
  refine ⟨?_, ?_, ?_, ?_, ?_, ?_, ?_, ?_⟩
  · have key : ∀ i j : Fin T0.length, ∀ s ∈ T0[i].syms, s ∈ T0[j].syms → i = j := by decide +kernel
    intro i j o o' s hi hj h1 h2
    obtain ⟨hi', rfl⟩ := hlen hi
    obtain ⟨hj', rfl⟩ := hlen hj
    exact congrArg Fin.val (key ⟨i, hi'⟩ ⟨j, hj'⟩ s h1 h2)
  · have key : ∀ i j : Fin T0.length, T0[i].preSym.isSome → T0[i].preSym = T0[j].preSym → i = j := by
      decide +kernel
    intro i j s p p' hi hj
    obtain ⟨hi', h1⟩ := hlen hi
    obtain ⟨hj', h2⟩ := hlen hj
    exact congrArg Fin.val (key ⟨i, hi'⟩ ⟨j, hj'⟩ (by simp [h1, Op.preSym]) (by simp [h1, h2, Op.preSym]))
  · have key : ∀ i j : Fin T0.length, T0[i].preSym.isSome → T0[j].syms ≠ [] → i < j := by
      decide +kernel
    intro i j s t p o hi hj ht
    obtain ⟨hi', h1⟩ := hlen hi
    obtain ⟨hj', rfl⟩ := hlen hj
    have := key ⟨i, hi'⟩ ⟨j, hj'⟩
    simp only [Fin.getElem_fin, h1, Op.preSym] at this
    exact this rfl (List.ne_nil_of_mem ht)
  · have key : ∀ i j : Fin T0.length, i < j → T0[j].prio ≤ T0[i].prio := by decide +kernel
    intro i j o o' hi hj hij
    obtain ⟨hi', rfl⟩ := hlen hi
    obtain ⟨hj', rfl⟩ := hlen hj
    exact key ⟨i, hi'⟩ ⟨j, hj'⟩ hij
  · have key : ∀ i j : Fin T0.length, T0[i].syms = cmps → T0[j].binSym.isSome →
        T0[i].prio ≠ T0[j].prio := by decide +kernel
    intro i j s p p' a hi hj
    obtain ⟨hi', h1⟩ := hlen hi
    obtain ⟨hj', h2⟩ := hlen hj
    have := key ⟨i, hi'⟩ ⟨j, hj'⟩ (by simp [h1, Op.syms]) (by simp [h2, Op.binSym])
    simpa only [Fin.getElem_fin, h1, h2, Op.prio] using this
  · have key : ∀ i : Fin T0.length, T0[i].preSym ≠ some "," := by decide +kernel
    intro i p hi
    obtain ⟨hi', h1⟩ := hlen hi
    exact key ⟨i, hi'⟩ (by simp [h1, Op.preSym])
  · have key : ∀ i : Fin T0.length, "," ∈ T0[i].syms → argLevel T0 ≤ i ∧ itemLevel T0 ≤ i := by
      decide +kernel
    intro k o hk hs
    obtain ⟨hk', rfl⟩ := hlen hk
    exact key ⟨k, hk'⟩ hs
  · decide +kernel

/-- Safe for the table of the code. -/
abbrev Safe0 : E → Prop := Safe T0 (argLevel T0) (itemLevel T0)
/-- `ts` reads as `e` with the grammar of the code. -/
abbrev Reads (ts : List Tok) (e : E) : Prop := D T0 (argLevel T0) (itemLevel T0) T0.length ts e

/-- **C44, round trip with the table of the code.** -/
theorem C44_roundtrip_code {e : E} (hs : Safe0 e) {ts : List Tok} (h : pr T0 e = some ts) :
    Reads ts e ∧ ∀ e', Reads ts e' → e' = e := C44_roundtrip C44_table hs h

/-! ### Rules -/

theorem T0_mem {i : Nat} {o : Op} (h : T0[i]? = some o) {P : Op → Prop} (hP : ∀ o ∈ T0, P o) : P o :=
  hP o (List.mem_of_getElem? h)

theorem star_only {i : Nat} {t : String} {c : Assoc} (h : T0[i]? = some (.bin t 700 c)) : t = "*" := by
  have : ∀ o ∈ T0, o.prio = 700 → o.binSym = some "*" := by decide +kernel
  have := T0_mem h this rfl
  simpa [Op.binSym] using this

theorem star_at {j : Nat} {q : Nat} {c : Assoc} (h : T0[j]? = some (.bin "*" q c)) : q = 700 := by
  have : ∀ o ∈ T0, o.binSym = some "*" → o.prio = 700 := by decide +kernel
  exact T0_mem h this rfl

theorem prod_safe : ∀ {bs : List E} {b : E}, Safe0 b → (∀ x ∈ bs, Safe0 x) → Safe0 (prod b bs)
  | [], b, hb, _ => hb
  | x :: bs, b, hb, hbs => by
    refine prod_safe (b := .bin "*" b x) ?_ fun y hy => hbs y (List.mem_cons_of_mem _ hy)
    refine .bin hb (hbs x List.mem_cons_self) (by decide) ?_ ?_
    · intro i j t y z p q c _ hi hj hpq
      rw [star_at hj] at hpq
      subst hpq
      have := star_only hi
      subst this
      exact le_of_eq (C44_table.syms i j _ _ "*" hi hj (by simp [Op.syms]) (by simp [Op.syms]))
    · intro i j t y z p q c _ hi hj hpq
      rw [star_at hj] at hpq
      subst hpq
      have := star_only hi
      subst this
      exact le_of_eq (C44_table.syms i j _ _ "*" hi hj (by simp [Op.syms]) (by simp [Op.syms]))

theorem flat_prod {bs : List E} : ∀ {b : E}, (∀ x ∈ bs, flat "*" x = [x]) →
    flat "*" (prod b bs) = flat "*" b ++ bs := by
  induction bs with
  | nil => intro b _; simp [prod]
  | cons x bs ih =>
    intro b h
    have := ih (b := .bin "*" b x) fun y hy => h y (List.mem_cons_of_mem _ hy)
    simp only [prod, List.foldl_cons] at this ⊢
    rw [this]
    simp [flat, h x List.mem_cons_self]

theorem prod_bin (bs : List E) (b x : E) : ∃ y z, prod b (x :: bs) = .bin "*" y z := by
  induction bs generalizing b x with
  | nil => exact ⟨b, x, rfl⟩
  | cons y bs ih => exact ih (.bin "*" b x) y

theorem lev_unique {T : List Op} {A C : Nat} (V : Valid T A C) {e : E} {k k' : Nat} (h : Lev T e k)
    (h' : Lev T e k') : k = k' := by
  cases h with
  | atom w => cases h'; rfl
  | call w es => cases h'; rfl
  | list es => cases h'; rfl
  | bin h => cases h' with
    | bin h' =>
      obtain ⟨o, h1, h2⟩ := h
      obtain ⟨o', h1', h2'⟩ := h'
      rw [V.syms _ _ _ _ _ h1 h1' h2 h2']
  | un h => cases h' with
    | un h' => rw [V.pres _ _ _ _ _ h h']

theorem at_T0 {i : Nat} {s : String} (h : At T0 i s) (hs : s ≠ "+=" ∧ s ≠ ":-" ∧ s ≠ ";") : i < 40 := by
  have key : ∀ i : Fin T0.length, ∀ s ∈ T0[i].syms, (s ≠ "+=" ∧ s ≠ ":-" ∧ s ≠ ";") → i.val < 40 := by
    decide +kernel
  obtain ⟨o, ho, hm⟩ := h
  obtain ⟨hi, rfl⟩ := List.getElem?_eq_some_iff.1 ho
  exact key ⟨i, hi⟩ s hm hs

theorem agg_at : T0[40]? = some (.bin "+=" 0 .N) := by decide +kernel

theorem pre_lt {i : Nat} {s : String} {p : Nat} (h : T0[i]? = some (.pre s p)) : i < 40 :=
  C44_table.first i 40 s "+=" p _ h agg_at (by simp [Op.syms])

/-- **C44, rules.**  A printed rule is read back as the same rule, and in no other way, when
* head and subgoals are safe;
* no subgoal is itself a product (of any arity);
* a single subgoal is no conjunction and no aggregation, and neither is the head of a rule without
  subgoals. -/
theorem C44_rule {h : E} {body : List E} (hs : Safe0 h) (hb : ∀ b ∈ body, Safe0 b)
    (hstar : ∀ b ∈ body, (∀ x y, b ≠ .bin "*" x y) ∧ ∀ x, b ≠ .un "*" x)
    (hone : ∀ b, body = [b] → (∀ s x y, b = .bin s x y → s ≠ "," ∧ s ≠ "+=" ∧ s ≠ ":-" ∧ s ≠ ";") ∧
      ∀ x, b ≠ .un "," x)
    (hnil : body = [] → ∀ s x y, h = .bin s x y → s ≠ "+=" ∧ s ≠ ":-")
    {ts : List Tok} (hp : prRule T0 h body = some ts) :
    (∃ e, Reads ts e) ∧ ∀ e, Reads ts e → toRule e = (h, body) := by
  have hstar' : ∀ b ∈ body, flat "*" b = [b] := by
    intro b hb
    cases b with
    | bin s x y =>
      simp only [flat]
      rw [if_neg]
      rintro rfl
      exact (hstar _ hb).1 x y rfl
    | un s x =>
      simp only [flat]
      rw [if_neg]
      rintro rfl
      exact (hstar _ hb).2 x rfl
    | atom w => rfl
    | call w es => rfl
    | list es => rfl
  suffices hm : ∃ e, Reads ts e ∧ toRule e = (h, body) by
    obtain ⟨e, he, hr⟩ := hm
    exact ⟨⟨e, he⟩, fun e' he' => by rw [C44_unambiguous C44_table he' he]; exact hr⟩
  simp only [prRule] at hp
  cases h1 : pr T0 h with
  | none => rw [h1] at hp; cases hp
  | some th =>
  rw [h1] at hp
  simp only at hp
  obtain ⟨k, hk, hD⟩ := print_derives C44_table h hs h1
  -- the head as printed
  obtain ⟨th', hth', hDh⟩ : ∃ th', headToks T0 h th = th' ∧ D T0 (argLevel T0) (itemLevel T0) 40 th' h := by
    have h40 : 40 ≤ T0.length := by decide +kernel
    cases hk with
    | atom w => exact ⟨_, rfl, hD.mono (Nat.zero_le _) h40⟩
    | call w es => exact ⟨_, rfl, hD.mono (Nat.zero_le _) h40⟩
    | list es => exact ⟨_, rfl, hD.mono (Nat.zero_le _) h40⟩
    | un hj => exact ⟨_, rfl, hD.mono (pre_lt hj) h40⟩
    | @bin s i x y hi =>
      have : (binop T0 s).isSome = true := by
        cases hb : binop T0 s with
        | none => exact absurd hi (binop_none hb i)
        | some _ => rfl
      refine ⟨_, rfl, ?_⟩
      simp only [headToks, this, if_true]
      exact (D.paren (hD.mono hD.le le_rfl)).mono (Nat.zero_le _) h40
  rw [hth'] at hp
  cases body with
  | nil =>
    simp only [Option.some.injEq] at hp
    subst hp
    refine ⟨h, hDh.mono hDh.le le_rfl, ?_⟩
    cases h with
    | bin s x y =>
      obtain ⟨n1, n2⟩ := hnil rfl s x y rfl
      simp [toRule, n1, n2]
    | _ => rfl
  | cons b bs =>
    simp only [Option.map_eq_some_iff] at hp
    obtain ⟨tb, htb, rfl⟩ := hp
    have hsafe : Safe0 (prod b bs) := prod_safe (hb b List.mem_cons_self)
      fun x hx => hb x (List.mem_cons_of_mem _ hx)
    obtain ⟨kb, hkb, hDb⟩ := print_derives C44_table _ hsafe htb
    have hlev : kb ≤ 40 := by
      cases bs with
      | nil =>
        have := hone b rfl
        simp only [prod, List.foldl_nil] at hkb
        cases hkb with
        | bin hi =>
          obtain ⟨_, n2, n3, n4⟩ := this.1 _ _ _ rfl
          exact at_T0 hi ⟨n2, n3, n4⟩
        | un hi => exact pre_lt hi
        | _ => exact Nat.zero_le _
      | cons x bs =>
        obtain ⟨y, z, e⟩ := prod_bin bs b x
        rw [e] at hkb
        cases hkb with
        | bin hi => exact at_T0 hi ⟨by decide, by decide, by decide⟩
    have h40 : 40 ≤ T0.length := by decide +kernel
    have := D.bin agg_at hDh (hDb.mono hlev h40)
    refine ⟨_, this.mono this.le le_rfl, ?_⟩
    have hcomma : flat "," (prod b bs) = [prod b bs] := by
      cases bs with
      | nil =>
        have hone := hone b rfl
        simp only [prod, List.foldl_nil]
        cases b with
        | bin s x y => simp [flat, (hone.1 s x y rfl).1]
        | un s x =>
          have : s ≠ "," := by rintro rfl; exact hone.2 x rfl
          simp [flat, this]
        | _ => rfl
      | cons x bs =>
        obtain ⟨y, z, e⟩ := prod_bin bs b x
        rw [e]
        rfl
    rw [show mk "+=" h (prod b bs) = .bin "+=" h (prod b bs) from rfl]
    simp only [toRule, or_true, if_true, hcomma, List.flatMap_cons, List.flatMap_nil, List.append_nil]
    rw [flat_prod fun x hx => hstar' x (List.mem_cons_of_mem _ hx), hstar' b List.mem_cons_self]
    rfl

/-! ### Violations -/

section Violations
open E Tok

/-- **C44 violated**: `(a // b) / c` prints as `a // b / c`, which reads as `a // (b / c)`. -/
theorem C44_equal_priority :
    let e := bin "/" (bin "//" (atom "a") (atom "b")) (atom "c")
    let ts := [word "a", op "//", word "b", op "/", word "c"]
    pr T0 e = some ts ∧ Reads ts (bin "//" (atom "a") (bin "/" (atom "b") (atom "c"))) ∧ ¬ Reads ts e := by
  have hr : Reads [word "a", op "//", word "b", op "/", word "c"]
      (bin "//" (atom "a") (bin "/" (atom "b") (atom "c"))) := by
    have h9 : T0[9]? = some (.bin "/" 750 .L) := by decide +kernel
    have h10 : T0[10]? = some (.bin "//" 750 .L) := by decide +kernel
    have w : ∀ w i, i ≤ T0.length → D T0 (argLevel T0) (itemLevel T0) i [word w] (atom w) := fun w i hi =>
      (D.word w).mono (Nat.zero_le _) hi
    have l : 11 ≤ T0.length := by decide +kernel
    have h1 := D.bin h9 (w "b" 10 (by omega)) (w "c" 9 (by omega))
    have h2 := D.bin h10 (w "a" 11 l) h1
    exact h2.mono l le_rfl
  refine ⟨by decide +kernel, hr, fun h => ?_⟩
  have := C44_unambiguous C44_table h hr
  simp at this

/-- **C44 violated**: a comma term as an argument, `f((a, b))`, prints as `f(a, b)`, which reads as a term
of arity two. -/
theorem C44_comma_argument :
    let e := call "f" [bin "," (atom "a") (atom "b")]
    let ts := [word "f", lp, word "a", op ",", word "b", rp]
    pr T0 e = some ts ∧ Reads ts (call "f" [atom "a", atom "b"]) ∧ ¬ Reads ts e := by
  have hr : Reads [word "f", lp, word "a", op ",", word "b", rp] (call "f" [atom "a", atom "b"]) := by
    have w : ∀ w, D T0 (argLevel T0) (itemLevel T0) (argLevel T0) [word w] (atom w) := fun w =>
      (D.word w).mono (Nat.zero_le _) C44_table.top.1
    exact (D.call (.cons (w "a") (.one (w "b")))).mono (Nat.zero_le _) le_rfl
  refine ⟨by decide +kernel, hr, fun h => ?_⟩
  have := C44_unambiguous C44_table h hr
  simp at this

/-- **C44 violated**: printing `(a < b) < c` raises `AttributeError`. -/
theorem C44_comparison_raises :
    pr T0 (bin "<" (bin "<" (atom "a") (atom "b")) (atom "c")) = none ∧
    (pr T0 (bin "<" (atom "a") (atom "b"))).isSome := by
  constructor <;> decide +kernel

/-- **C44 violated**: `a for b` is read as the conjunction `b, a`. -/
theorem C44_for :
    let e := bin "for" (atom "a") (atom "b")
    let ts := [word "a", op "for", word "b"]
    pr T0 e = some ts ∧ Reads ts (bin "," (atom "b") (atom "a")) ∧ ¬ Reads ts e := by
  have hr : Reads [word "a", op "for", word "b"] (bin "," (atom "b") (atom "a")) := by
    have h39 : T0[39]? = some (.bin "for" 103 .R) := by decide +kernel
    have w : ∀ w i, i ≤ T0.length → D T0 (argLevel T0) (itemLevel T0) i [word w] (atom w) := fun w i hi =>
      (D.word w).mono (Nat.zero_le _) hi
    have l : 40 ≤ T0.length := by decide +kernel
    exact (D.bin h39 (w "a" 39 (by omega)) (w "b" 40 l)).mono l le_rfl
  refine ⟨by decide +kernel, hr, fun h => ?_⟩
  have := C44_unambiguous C44_table h hr
  simp at this

theorem conj_list {e : E} {l : List (String × E)} (h : ∀ s a b, conj e l ≠ .bin s a b) : l = [] := by
  cases l with
  | nil => rfl
  | cons x l =>
    exfalso
    have : ∀ (l : List (String × E)) (s : String) (a b c : E), ∃ s' a' b', conjGo (.bin s a b) c l = .bin s' a' b' := by
      intro l
      induction l with
      | nil => intro s a b c; exact ⟨s, a, b, rfl⟩
      | cons y l ih => intro s a b c; exact ih _ _ _ _
    obtain ⟨s', a', b', e'⟩ := this l x.1 e x.2 x.2
    exact h s' a' b' e'

theorem mk_bin (s : String) (a b : E) : ∃ t x y, mk s a b = .bin t x y := by
  unfold mk
  split
  · exact ⟨_, _, _, rfl⟩
  · exact ⟨_, _, _, rfl⟩

/-- A list is read at level zero. -/
theorem D.list_inv {T : List Op} {A C : Nat} : ∀ {i : Nat} {ts : List Tok} {es : List E},
    D T A C i ts (.list es) → D T A C 0 ts (.list es)
  | 0, _, _, h => h
  | i + 1, ts, es, h => by
    generalize he : E.list es = e at h
    cases h with
    | lift _ h => subst he; exact h.list_inv
    | @bin _ s _ _ _ _ a b _ _ _ =>
      obtain ⟨t, x, y, e'⟩ := mk_bin s a b
      rw [e'] at he; cases he
    | pre _ _ => cases he
    | @cmp _ p ts e rs l _ h hR =>
      have : l = [] := conj_list (e := e) fun s a b h' => by rw [← he] at h'; cases h'
      subst this
      cases hR
      simp only [conj] at he
      subst he
      rw [List.append_nil]
      exact h.list_inv

/-- **C44 violated**: the list `[a = b]` prints without parentheses, and is not read back: inside a list
nothing of the priority of the bar or lower is allowed. -/
theorem C44_list_item :
    let e := E.list [bin "=" (atom "a") (atom "b")]
    let ts := [lb, word "a", op "=", word "b", rb]
    pr T0 e = some ts ∧ ¬ Reads ts e := by
  refine ⟨by decide +kernel, fun h => ?_⟩
  have h0 := h.list_inv
  rcases h0.inv0 with ⟨w, e, _⟩ | ⟨w, e, _⟩ | ⟨w, b, es, m, e, _⟩ | ⟨b, e, _⟩ | ⟨e, _⟩ | ⟨b, es, e, hA, he⟩
  · simp at e
  · simp at e
  · simp at e
  · simp at e
  · simp at e
  · have hb : b = [word "a", op "=", word "b"] := by
      have e2 : b ++ [rb] = [word "a", op "=", word "b"] ++ [rb] := by simpa using e.symm
      exact List.append_cancel_right e2
    subst hb
    have w : D T0 (argLevel T0) (itemLevel T0) (itemLevel T0) [word "a"] (atom "a") :=
      (D.word "a").mono (Nat.zero_le _) C44_table.top.2
    have h37 : T0[37]? = some (.bin "=" 150 .N) := by decide +kernel
    have hle : itemLevel T0 ≤ 37 := by decide +kernel
    have hf : Follow T0 (itemLevel T0) [op "=", word "b"] := by
      refine ⟨fun _ h => by simp at h, fun s r' h j ⟨o, ho, hs⟩ => ?_⟩
      simp only [List.cons.injEq, Tok.op.injEq] at h
      rw [← h.1] at hs
      rw [C44_table.syms j 37 o _ "=" ho h37 hs (by simp [Op.syms])]
      exact hle
    have hf0 : Follow T0 (itemLevel T0) [] := ⟨fun _ h => by simp at h, fun _ _ h => by simp at h⟩
    generalize hts : [word "a", op "=", word "b"] = ts at hA
    cases hA with
    | one hD =>
      subst hts
      have := uniq C44_table _ _ le_rfl hD w (r := []) (r' := [op "=", word "b"]) rfl hf0 hf
      simp at this
    | @cons _ t1 e1 t2 es1 hD hA =>
      have hmem : op "," ∈ t1 ++ op "," :: t2 := by simp
      rw [← hts] at hmem
      simp at hmem

/-- **C44 violated**: `+(-a)` prints as `+-a`, which is not read back: among the prefix operators of equal
priority only earlier ones may follow. -/
theorem C44_prefix :
    let e := un "+" (un "-" (atom "a"))
    let ts := [op "+", op "-", word "a"]
    pr T0 e = some ts ∧ ¬ Reads ts e := by
  refine ⟨by decide +kernel, fun h => ?_⟩
  have hT2 : T0[2]? = some (.pre "+" 900) := by decide +kernel
  have hT3 : T0[3]? = some (.pre "-" 900) := by decide +kernel
  have key : ∀ {i : Nat}, ¬ D T0 (argLevel T0) (itemLevel T0) i [op "+", op "-", word "a"]
      (un "+" (un "-" (atom "a"))) := by
    intro i
    induction i with
    | zero => intro h; rcases h.inv0 with ⟨w, e, _⟩ | ⟨w, e, _⟩ | ⟨w, b, es, m, e, _⟩ | ⟨b, e, _⟩ | ⟨e, _⟩ |
        ⟨b, es, e, hA, he⟩ <;> simp at e
    | succ i ih =>
      intro h
      generalize he : un "+" (un "-" (atom "a")) = e at h
      generalize hts : [op "+", op "-", word "a"] = ts at h
      cases h with
      | lift _ h => subst he hts; exact ih h
      | @bin _ s _ _ _ _ a b _ _ _ =>
        obtain ⟨t, x, y, e'⟩ := mk_bin s a b
        rw [e'] at he; cases he
      | @pre _ s p ts' e' hi h =>
        cases he
        simp only [List.cons.injEq, true_and] at hts
        subst hts
        have := C44_table.pres i 2 "+" _ _ hi hT2
        subst this
        obtain ⟨t, r, e1, hs⟩ := D.start _ le_rfl h
        simp only [List.cons.injEq] at e1
        rw [← e1.1] at hs
        obtain ⟨j, p, hj, hlt⟩ := hs
        have := C44_table.pres j 3 "-" _ _ hj hT3
        omega
      | @cmp _ p ts e rs l _ h hR =>
        have : l = [] := conj_list (e := e) fun s a b h' => by rw [← he] at h'; cases h'
        subst this
        cases hR
        simp only [conj] at he
        subst he
        rw [List.append_nil] at hts
        subst hts
        exact ih h
  exact key h

/-- **C44 violated**: the rule `h += *a` (a unary product) is read as `h += a`. -/
theorem C44_rule_unary :
    let ts := [word "h", op "+=", op "*", word "a"]
    prRule T0 (atom "h") [un "*" (atom "a")] = some ts ∧
    ∀ e, Reads ts e → toRule e = (atom "h", [atom "a"]) := by
  refine ⟨by decide +kernel, fun e he => ?_⟩
  have hr : Reads [word "h", op "+=", op "*", word "a"] (bin "+=" (atom "h") (un "*" (atom "a"))) := by
    have h6 : T0[6]? = some (.pre "*" 900) := by decide +kernel
    have l : 41 ≤ T0.length := by decide +kernel
    have h1 := D.pre h6 ((D.word (T := T0) (A := argLevel T0) (C := itemLevel T0) "a").mono (Nat.zero_le 7)
      (by omega))
    have h2 := D.bin agg_at (show D _ _ _ (lft .N 40) _ _ from (D.word "h").mono (Nat.zero_le 40) (by omega : 40 ≤ _))
      (show D _ _ _ (rgt .N 40) _ _ from h1.mono (j := 40) (by omega) (by omega))
    exact h2.mono l le_rfl
  rw [C44_unambiguous C44_table he hr]
  rfl

/-- **C44 violated**: the rule `h += (a ; b)` prints as `h += a; b`, which is not read as a rule for `h`. -/
theorem C44_rule_semicolon :
    let ts := [word "h", op "+=", word "a", op ";", word "b"]
    prRule T0 (atom "h") [bin ";" (atom "a") (atom "b")] = some ts ∧
    ∀ e, Reads ts e → toRule e = (bin ";" (bin "+=" (atom "h") (atom "a")) (atom "b"), []) := by
  refine ⟨by decide +kernel, fun e he => ?_⟩
  have hr : Reads [word "h", op "+=", word "a", op ";", word "b"]
      (bin ";" (bin "+=" (atom "h") (atom "a")) (atom "b")) := by
    have h42 : T0[42]? = some (.bin ";" 0 .L) := by decide +kernel
    have l : 43 ≤ T0.length := by decide +kernel
    have w : ∀ w i, i ≤ T0.length → D T0 (argLevel T0) (itemLevel T0) i [word w] (atom w) := fun w i hi =>
      (D.word w).mono (Nat.zero_le _) hi
    have h1 := D.bin agg_at (w "h" 40 (by omega)) (w "a" 40 (by omega))
    have h2 := D.bin h42 (h1.mono (j := 43) (by omega) l) (w "b" 42 (by omega))
    exact h2.mono l le_rfl
  rw [C44_unambiguous C44_table he hr]
  rfl

end Violations

section Examples
open E Tok

/-- `a * (b + c)` keeps its parentheses, `(a * b) + c` loses them; both are read back. -/
example : pr T0 (bin "*" (atom "a") (bin "+" (atom "b") (atom "c")))
      = some [word "a", op "*", lp, word "b", op "+", word "c", rp] ∧
    pr T0 (bin "+" (bin "*" (atom "a") (atom "b")) (atom "c"))
      = some [word "a", op "*", word "b", op "+", word "c"] := by
  constructor <;> decide +kernel

example : Reads [word "a", op "*", lp, word "b", op "+", word "c", rp]
    (bin "*" (atom "a") (bin "+" (atom "b") (atom "c"))) := by
  refine (C44_roundtrip_code (.bin (.atom _) (.bin (.atom _) (.atom _) (by decide) ?_ ?_) (by decide) ?_ ?_)
    (by decide +kernel)).1
  · intro i j t x y p q c h; cases h
  · intro i j t x y p q c h; cases h
  · intro i j t x y p q c h; cases h
  · intro i j t x y p q c h hi hj
    cases h
    have : ∀ o ∈ T0, o ≠ .bin "+" p .R := by
      intro o ho hc
      have key : ∀ o ∈ T0, o.binSym = some "+" → o = .bin "+" 600 .L := by decide +kernel
      have := key o ho (by rw [hc]; rfl)
      rw [this] at hc
      simp at hc
    exact absurd rfl (this _ (List.mem_of_getElem? hi))

/-- The rule `goal(X) += f(X) * g(X)`. -/
example : prRule T0 (call "goal" [atom "X"]) [call "f" [atom "X"], call "g" [atom "X"]]
    = some [word "goal", lp, word "X", rp, op "+=", word "f", lp, word "X", rp, op "*", word "g", lp,
        word "X", rp] := by decide +kernel

end Examples

end Pretty
end Verif
