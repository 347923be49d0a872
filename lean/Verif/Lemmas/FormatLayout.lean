import Verif.Lemmas.FormatItems
import Verif.Lemmas.ParseUpdates
/-!
How the formatter lays out the pieces of text of a well-formed tree.
-/
namespace Alda
namespace Syn
open Spec Tree

/-- What stands before a place in the output: a piece of text, white space after a piece on the same line, or the beginning of a line. -/
inductive Before where
  | word | space | newline
deriving DecidableEq

def Before.blank (g : Before) (c : Char) : Before := if c = '\n' ∨ g = .newline then .newline else .space

/-- The text consists of the pieces with white space between them. -/
inductive Layout : Before → List Item → List Char → Before → Prop where
  | nil (g : Before) : Layout g [] [] g
  | blank (g : Before) (c : Char) (is : List Item) (cs : List Char) (g' : Before) : isBlank c = true → (g = .word → c = ' ' ∨ c = '\n') →
      Layout (g.blank c) is cs g' → Layout g is (c :: cs) g'
  | brk (is : List Item) (cs : List Char) (g' : Before) : Layout .newline is cs g' → Layout .newline (.brk :: is) cs g'
  | text (g : Before) (glue : Bool) (t : List Char) (ks : List Kind) (is : List Item) (cs : List Char) (g' : Before) : g ≠ .word →
      (glue = true → g = .space) → Layout .word is cs g' → Layout g (.t glue t ks :: is) (t ++ cs) g'

theorem Layout.append {g g1 g2 : Before} {is is' : List Item} {cs cs' : List Char} (h : Layout g is cs g1) (h' : Layout g1 is' cs' g2) :
    Layout g (is ++ is') (cs ++ cs') g2 := by
  induction h with
  | nil => exact h'
  | blank g c is cs g1 hb hw _ ih => exact .blank g c _ _ _ hb hw (ih h')
  | brk is cs g1 _ ih => exact .brk _ _ _ (ih h')
  | text g glue t ks is cs g1 h1 h2 _ ih => rw [List.append_assoc]; exact .text g glue t ks _ _ _ h1 h2 (ih h')

/-- Without the demand that pieces stand on the same line. -/
inductive Looser : List Item → List Item → Prop where
  | nil : Looser [] []
  | t (g g' : Bool) (text : List Char) (ks : List Kind) (is is' : List Item) : (g' = true → g = true) → Looser is is' →
      Looser (.t g text ks :: is) (.t g' text ks :: is')
  | brk (is is' : List Item) : Looser is is' → Looser (.brk :: is) (.brk :: is')

theorem Looser.refl : ∀ is, Looser is is
  | [] => .nil
  | .t g text ks :: is => .t g g text ks is is id (Looser.refl is)
  | .brk :: is => .brk is is (Looser.refl is)

theorem Layout.loosen {g g' : Before} {is is' : List Item} {cs : List Char} (h : Layout g is cs g') (hl : Looser is is') : Layout g is' cs g' := by
  induction h generalizing is' with
  | nil => cases hl; exact .nil _
  | blank g c is cs g1 hb hw _ ih => exact .blank g c _ _ _ hb hw (ih hl)
  | brk is cs g1 _ ih => cases hl with | brk _ _ hl => exact .brk _ _ _ (ih hl)
  | text g glue t ks is cs g1 h1 h2 _ ih => cases hl with | t _ _ _ _ _ _ hg hl => exact .text g _ t ks _ _ _ h1 (fun h => h2 (hg h)) (ih hl)

theorem looser_glueAll : ∀ is, Looser (glueAll is) is
  | [] => .nil
  | .t g text ks :: is => .t true g text ks _ _ (fun _ => rfl) (looser_glueAll is)
  | .brk :: is => .brk _ _ (looser_glueAll is)

theorem looser_glueFirst : ∀ is, Looser (glueFirst is) is
  | [] => .nil
  | .t g text ks :: is => .t true g text ks _ _ (fun _ => rfl) (Looser.refl is)
  | .brk :: is => .brk _ _ (Looser.refl is)

theorem looser_glue : ∀ is, Looser (glueAll is) (glueFirst is)
  | [] => .nil
  | .t _ text ks :: is => .t true true text ks _ _ (fun _ => rfl) (looser_glueAll is)
  | .brk :: is => .brk _ _ (looser_glueAll is)

theorem Looser.append {a a' b b' : List Item} (h : Looser a a') (h' : Looser b b') : Looser (a ++ b) (a' ++ b') := by
  induction h with
  | nil => exact h'
  | t g g' text ks is is' hg _ ih => exact .t g g' text ks _ _ hg ih
  | brk is is' _ ih => exact .brk _ _ ih

theorem glueAll_append : ∀ a b, glueAll (a ++ b) = glueAll a ++ glueAll b
  | [], b => rfl
  | .t _ text ks :: a, b => by simp only [List.cons_append, glueAll, glueAll_append a b]
  | .brk :: a, b => by simp only [List.cons_append, glueAll, glueAll_append a b]

/-! ### The formatter's state -/

/-- The line that is not written yet. -/
def Fmt.pending (f : Fmt) : List Char := if f.texts = [] then [] else (List.replicate f.indentLevel.toNat f.indentText).flatten ++ joinSpace f.texts

/-- What will be written, as far as it is known. -/
def Fmt.shown (f : Fmt) : List Char := f.out ++ f.pending

def Fmt.before (f : Fmt) : Before := if f.texts = [] then .newline else .word

structure Good (f : Fmt) : Prop where
  level : 0 ≤ f.indentLevel
  blank : ∀ c ∈ f.indentText, isBlank c = true
  words : ∀ t ∈ f.texts, t ≠ []
  mode : f.varDef ≠ .none → f.texts ≠ []

/-- Writes these pieces. -/
def Emit (f : Fmt) (is : List Item) (f' : Fmt) : Prop := ∃ cs, f'.shown = f.shown ++ cs ∧ Layout f.before is cs f'.before

theorem Emit.nil {f f' : Fmt} (h : f'.shown = f.shown) (h' : f'.before = f.before) : Emit f [] f' := ⟨[], by simp [h], by rw [h']; exact .nil _⟩

theorem Emit.append {f f1 f2 : Fmt} {is is' : List Item} (h : Emit f is f1) (h' : Emit f1 is' f2) : Emit f (is ++ is') f2 := by
  obtain ⟨cs, e, l⟩ := h
  obtain ⟨cs', e', l'⟩ := h'
  exact ⟨cs ++ cs', by rw [e', e, List.append_assoc], l.append l'⟩

theorem Emit.loosen {f f' : Fmt} {is is' : List Item} (h : Emit f is f') (hl : Looser is is') : Emit f is' f' := by
  obtain ⟨cs, e, l⟩ := h
  exact ⟨cs, e, l.loosen hl⟩

theorem joinSpace_ne_nil {ts : List (List Char)} (h : ∀ t ∈ ts, t ≠ []) (h0 : ts ≠ []) : joinSpace ts ≠ [] := by
  cases ts with
  | nil => exact absurd rfl h0
  | cons t ts =>
    have := h t (List.mem_cons_self ..)
    cases ts with
    | nil => exact this
    | cons t' ts => simp [joinSpace]

theorem joinSpace_snoc : ∀ (ts : List (List Char)) (t : List Char), ts ≠ [] → joinSpace (ts ++ [t]) = joinSpace ts ++ ' ' :: t
  | [], _, h => absurd rfl h
  | [a], t, _ => rfl
  | a :: b :: ts, t, _ => by
    have := joinSpace_snoc (b :: ts) t (by simp)
    simp only [List.cons_append, joinSpace] at this ⊢
    rw [this]; simp

theorem Good.line {f : Fmt} (h : Good f) : f.line = .ok f.pending := by
  unfold Fmt.line Fmt.pending
  by_cases h0 : f.texts = []
  · simp [h0, joinSpace]
  · have := joinSpace_ne_nil h.words h0
    have hl : ¬ f.indentLevel < 0 := by have := h.level; omega
    simp [this, h0, repeatText, hl]
    rfl

theorem layout_blanks {g : Before} {cs bs : List Char} {is : List Item} {g' : Before} (hb : ∀ c ∈ bs, isBlank c = true) (h : Layout .newline is cs g')
    (hg : g = .newline) : Layout g is (bs ++ cs) g' := by
  subst hg
  induction bs with
  | nil => exact h
  | cons b bs ih =>
    exact .blank _ b _ _ _ (hb b (List.mem_cons_self ..)) (by simp) (by
      have : Before.blank .newline b = .newline := by simp [Before.blank]
      rw [this]; exact ih fun c hc => hb c (List.mem_cons_of_mem _ hc))

theorem indent_blank {f : Fmt} (h : Good f) : ∀ c ∈ (List.replicate f.indentLevel.toNat f.indentText).flatten, isBlank c = true := by
  intro c hc
  obtain ⟨l, hl, hc⟩ := List.mem_flatten.1 hc
  rw [(List.mem_replicate.1 hl).2] at hc
  exact h.blank c hc

/-- The level and the text of the indentation stay the same. -/
def Keeps (f f' : Fmt) : Prop := f'.indentLevel = f.indentLevel ∧ f'.indentText = f.indentText

theorem Keeps.trans {f f1 f2 : Fmt} (h : Keeps f f1) (h' : Keeps f1 f2) : Keeps f f2 := ⟨h'.1.trans h.1, h'.2.trans h.2⟩

theorem Keeps.refl (f : Fmt) : Keeps f f := ⟨rfl, rfl⟩

/-- `flush` when no variable is being defined. -/
theorem flush_run {f : Fmt} (h : Good f) (hm : f.varDef = .none) : ∃ f', f.flush = .ok f' ∧ Good f' ∧ Keeps f f' ∧ f'.varDef = .none ∧ f'.texts = [] ∧
    Emit f [] f' := by
  unfold Fmt.flush
  by_cases h0 : f.texts = []
  · exact ⟨f, by simp [h0], h, Keeps.refl f, hm, h0, Emit.nil rfl rfl⟩
  · refine ⟨{ f with out := f.out ++ (f.pending ++ ['\n']), texts := [] }, ?_, ?_, ⟨rfl, rfl⟩, hm, rfl, ['\n'], ?_, ?_⟩
    · rw [if_pos ⟨h0, hm⟩, h.line]; rfl
    · exact ⟨h.level, h.blank, by simp, by simp [hm]⟩
    · simp [Fmt.shown, Fmt.pending]
    · have e1 : f.before = .word := by simp [Fmt.before, h0]
      rw [e1]
      exact .blank _ _ _ _ _ (by decide) (by simp) (.nil _)

theorem flush_same {f : Fmt} (hm : f.varDef ≠ .none) : f.flush = .ok f := by
  unfold Fmt.flush
  rw [if_neg (by simp [hm])]

/-- Adding a piece to the line. -/
theorem push_run {f : Fmt} (h : Good f) {text : List Char} (h0 : text ≠ []) (ks : List Kind) (g : Bool) (hg : g = true → f.texts ≠ []) :
    Good { f with texts := f.texts ++ [text] } ∧ Emit f [.t g text ks] { f with texts := f.texts ++ [text] } := by
  refine ⟨⟨h.level, h.blank, ?_, by simp⟩, ?_⟩
  · intro t ht
    rcases List.mem_append.1 ht with ht | ht
    · exact h.words t ht
    · simp only [List.mem_singleton] at ht; rw [ht]; exact h0
  · have last : Layout .word [] [] .word := .nil _
    have e2 : Fmt.before { f with texts := f.texts ++ [text] } = .word := by simp [Fmt.before]
    unfold Emit
    rw [e2]
    by_cases he : f.texts = []
    · refine ⟨(List.replicate f.indentLevel.toNat f.indentText).flatten ++ (text ++ []), ?_, ?_⟩
      · simp [Fmt.shown, Fmt.pending, he, joinSpace]
      · have e1 : f.before = .newline := by simp [Fmt.before, he]
        rw [e1]
        exact layout_blanks (indent_blank h) (.text _ g text ks _ _ _ (by simp) (fun hh => absurd he (hg hh)) last) rfl
    · refine ⟨' ' :: (text ++ []), ?_, ?_⟩
      · simp [Fmt.shown, Fmt.pending, he, joinSpace_snoc]
      · have e1 : f.before = .word := by simp [Fmt.before, he]
        rw [e1]
        exact .blank _ _ _ _ _ (by decide) (by simp) (.text _ g text ks _ _ _ (by simp [Before.blank]) (fun _ => by simp [Before.blank]) last)

/-- Which pieces stand on the same line as the one before. -/
def glued (m : VarDefState) (is : List Item) : List Item :=
  match m with
  | .none => is
  | .defining => glueAll is
  | .lastNode => glueFirst is

/-- The formatter runs, and writes these pieces. While the events of a definition are written, there must be no place for a new line among them. -/
def Run (b : Bool) (g : Fmt → Except Err Fmt) (is : List Item) : Prop := ∀ f, Good f → (f.varDef = .defining → b = true) →
  ∃ f', g f = .ok f' ∧ Good f' ∧ Keeps f f' ∧ (f'.varDef = f.varDef ∨ (f.varDef = .lastNode ∧ f'.varDef = .none)) ∧ Emit f (glued f.varDef is) f'

theorem write_run {text : List Char} (h0 : text ≠ []) (ks : List Kind) (b : Bool) : Run b (Fmt.write text) [.t false text ks] := by
  intro f h _
  unfold Fmt.write
  have hl : Fmt.line { f with texts := f.texts ++ [text] } = .ok (Fmt.pending { f with texts := f.texts ++ [text] }) :=
    (push_run h h0 ks false (by simp)).1.line
  simp only [hl, ok_bind]
  split
  · rename_i hc
    obtain ⟨f1, e1, g1, k1, m1, t1, em1⟩ := flush_run h hc.2
    obtain ⟨g2, em2⟩ := push_run g1 h0 ks false (by simp)
    rw [e1]
    refine ⟨_, rfl, g2, k1.trans ⟨rfl, rfl⟩, Or.inl (by rw [hc.2]; exact m1), ?_⟩
    rw [hc.2]
    exact em1.append em2
  · refine ⟨_, rfl, (push_run h h0 ks false (by simp)).1, ⟨rfl, rfl⟩, Or.inl rfl, ?_⟩
    by_cases hm : f.varDef = .none
    · rw [hm]; exact (push_run h h0 ks false (by simp)).2
    · have : glued f.varDef [.t false text ks] = [.t true text ks] := by
        cases h : f.varDef
        · exact absurd h hm
        · rfl
        · rfl
      rw [this]; exact (push_run h h0 ks true (fun _ => h.mode hm)).2

/-- Begins with a piece. -/
def Starts (is : List Item) : Prop := ∃ g text ks is', is = .t g text ks :: is'

theorem Starts.append {is : List Item} (h : Starts is) (is' : List Item) : Starts (is ++ is') := by
  obtain ⟨g, text, ks, is1, rfl⟩ := h
  exact ⟨g, text, ks, is1 ++ is', rfl⟩

theorem looser_glued (m : VarDefState) (is : List Item) : Looser (glued m is) is := by
  cases m
  · exact Looser.refl is
  · exact looser_glueAll is
  · exact looser_glueFirst is

theorem glueFirst_append {is is' : List Item} (h : Starts is) : glueFirst (is ++ is') = glueFirst is ++ is' := by
  obtain ⟨g, text, ks, is1, rfl⟩ := h
  rfl

theorem Run.bind {b b' : Bool} {g g' : Fmt → Except Err Fmt} {is is' : List Item} (h : Run b g is) (h' : Run b' g' is') (hs : Starts is) :
    Run (b && b') (fun f => g f >>= g') (is ++ is') := by
  intro f hf hb
  obtain ⟨f1, e1, g1, k1, m1, em1⟩ := h f hf (fun h => by have := hb h; simp at this; exact this.1)
  have hb' : f1.varDef = .defining → b' = true := by
    intro hd
    rcases m1 with m1 | ⟨_, m1⟩
    · have := hb (by rw [← m1, hd]); simp at this; exact this.2
    · rw [m1] at hd; simp at hd
  obtain ⟨f2, e2, g2, k2, m2, em2⟩ := h' f1 g1 hb'
  refine ⟨f2, by simp only [e1, ok_bind]; exact e2, g2, k1.trans k2, ?_, ?_⟩
  · rcases m1 with m1 | ⟨m1, m1'⟩
    · rcases m2 with m2 | ⟨m2, m2'⟩
      · exact Or.inl (m2.trans m1)
      · exact Or.inr ⟨m1 ▸ m2, m2'⟩
    · rcases m2 with m2 | ⟨m2, m2'⟩
      · exact Or.inr ⟨m1, m2.trans m1'⟩
      · rw [m1'] at m2; simp at m2
  · refine (em1.append em2).loosen ?_
    cases hm : f.varDef with
    | none => exact (Looser.refl is).append (looser_glued _ _)
    | lastNode =>
      simp only [glued]
      rw [glueFirst_append hs]
      exact (Looser.refl _).append (looser_glued f1.varDef is')
    | defining =>
      rcases m1 with m1 | ⟨m1, _⟩
      · rw [m1, hm]
        simp only [glued, glueAll_append]
        exact Looser.refl _
      · rw [hm] at m1; simp at m1

theorem Run.nothing (b : Bool) : Run b (fun f => .ok f) [] := by
  intro f hf _
  refine ⟨f, rfl, hf, Keeps.refl f, Or.inl rfl, ?_⟩
  cases f.varDef <;> exact Emit.nil rfl rfl

theorem Run.flushed {b : Bool} {g : Fmt → Except Err Fmt} {is : List Item} (h : Run b g is) : Run b (fun f => f.flush >>= g) is := by
  intro f hf hb
  by_cases hm : f.varDef = .none
  · obtain ⟨f1, e1, g1, k1, m1, _, em1⟩ := flush_run hf hm
    obtain ⟨f2, e2, g2, k2, m2, em2⟩ := h f1 g1 (by simp [m1])
    refine ⟨f2, by simp only [e1, ok_bind]; exact e2, g2, k1.trans k2, ?_, ?_⟩
    · rw [m1] at m2; rw [hm]; exact m2
    · rw [m1] at em2; rw [hm]; exact em1.append em2
  · simp only [flush_same hm, ok_bind]
    exact h f hf hb

/-- A piece followed by pieces on lines of their own. -/
theorem Run.block {b : Bool} {g : Fmt → Except Err Fmt} {is : List Item} (h : Run b g is) {text : List Char} (h0 : text ≠ []) (ks : List Kind) :
    Run b (fun f => f.write text >>= fun f => f.indent >>= fun f => g f >>= fun f => f.unindent) (.t false text ks :: is) := by
  intro f hf hb
  obtain ⟨f1, e1, g1, k1, m1, em1⟩ := write_run h0 ks true f hf (fun _ => rfl)
  have hw : f1.varDef = f.varDef := by
    rcases m1 with m1 | ⟨m1, m1'⟩
    · exact m1
    · exfalso
      unfold Fmt.write at e1
      have hl : Fmt.line { f with texts := f.texts ++ [text] } = .ok (Fmt.pending { f with texts := f.texts ++ [text] }) :=
        (push_run hf h0 ks false (by simp)).1.line
      simp only [hl, ok_bind] at e1
      rw [if_neg (by simp [m1])] at e1
      injection e1 with e1
      rw [← e1] at m1'
      exact absurd (m1.symm.trans m1') (by decide)
  simp only [e1, ok_bind]
  by_cases hd : f.varDef = .defining
  · have hd1 : f1.varDef = .defining := hw.trans hd
    have ei : f1.indent = .ok f1 := by unfold Fmt.indent; rw [hd1]
    obtain ⟨f2, e2, g2, k2, m2, em2⟩ := h f1 g1 (fun _ => hb hd)
    have hd2 : f2.varDef = .defining := by
      rcases m2 with m2 | ⟨m2, _⟩
      · exact m2.trans hd1
      · rw [hd1] at m2; simp at m2
    have eu : f2.unindent = .ok f2 := by unfold Fmt.unindent; rw [if_neg (by simp [hd2])]
    simp only [ei, ok_bind, e2, eu]
    refine ⟨f2, rfl, g2, k1.trans k2, Or.inl (hd2.trans hd.symm), ?_⟩
    rw [hd1] at em2
    rw [hd] at em1 ⊢
    exact em1.append em2
  · have hd1 : f1.varDef ≠ .defining := fun h => hd (hw ▸ h)
    have gn : Good { f1 with varDef := .none } := ⟨g1.level, g1.blank, g1.words, by simp⟩
    obtain ⟨f2, e2, g2, k2, m2, t2, em2⟩ := flush_run gn rfl
    have ei : f1.indent = .ok { f2 with indentLevel := f2.indentLevel + 1 } := by
      unfold Fmt.indent
      cases hm : f1.varDef with
      | defining => exact absurd hm hd1
      | none => simp only [e2]; rfl
      | lastNode => simp only [e2]; rfl
    have g3 : Good { f2 with indentLevel := f2.indentLevel + 1 } := ⟨by have := g2.level; show 0 ≤ f2.indentLevel + 1; omega, g2.blank, g2.words, g2.mode⟩
    obtain ⟨f4, e4, g4, k4, m4, em4⟩ := h _ g3 (by simp [m2])
    have hn4 : f4.varDef = .none := by
      rcases m4 with m4 | ⟨_, m4⟩
      · exact m4.trans m2
      · exact m4
    obtain ⟨f5, e5, g5, k5, m5, t5, em5⟩ := flush_run g4 hn4
    have l5 : f5.indentLevel = f.indentLevel + 1 := by
      rw [k5.1, k4.1]
      show f2.indentLevel + 1 = _
      rw [k2.1]
      show f1.indentLevel + 1 = _
      rw [k1.1]
    have eu : f4.unindent = .ok { f5 with indentLevel := f5.indentLevel - 1 } := by
      unfold Fmt.unindent; rw [if_pos hn4]; simp only [e5]; rfl
    simp only [ei, ok_bind, e4, eu]
    refine ⟨_, rfl, ⟨?_, g5.blank, g5.words, g5.mode⟩, ⟨?_, ?_⟩, ?_, ?_⟩
    · have := hf.level
      show 0 ≤ f5.indentLevel - 1
      omega
    · show f5.indentLevel - 1 = f.indentLevel
      omega
    · show f5.indentText = f.indentText
      rw [k5.2, k4.2]
      show f2.indentText = _
      rw [k2.2]; exact k1.2
    · show f5.varDef = _ ∨ (_ ∧ f5.varDef = .none)
      cases hm : f.varDef with
      | none => exact Or.inl m5
      | lastNode => exact Or.inr ⟨rfl, m5⟩
      | defining => exact absurd hm hd
    · -- the pieces
      have em1' : Emit f (glued f.varDef [.t false text ks]) f2 := by
        have : Emit f (glued f.varDef [.t false text ks] ++ []) f2 := em1.append (f1 := f1) em2
        simpa using this
      have em4' : Emit f2 is f4 := by
        have hb0 : Fmt.before { f2 with indentLevel := f2.indentLevel + 1 } = f2.before := rfl
        have hs0 : Fmt.shown { f2 with indentLevel := f2.indentLevel + 1 } = f2.shown := by simp [Fmt.shown, Fmt.pending, t2]
        obtain ⟨cs, ec, lc⟩ := em4
        rw [hb0] at lc
        rw [hs0] at ec
        have : glued (Fmt.varDef { f2 with indentLevel := f2.indentLevel + 1 }) is = is := by
          show glued f2.varDef is = is
          rw [m2]; rfl
        rw [this] at lc
        exact ⟨cs, ec, lc⟩
      have em5' : Emit f4 [] { f5 with indentLevel := f5.indentLevel - 1 } := by
        have hb0 : Fmt.before { f5 with indentLevel := f5.indentLevel - 1 } = f5.before := rfl
        have hs0 : Fmt.shown { f5 with indentLevel := f5.indentLevel - 1 } = f5.shown := by simp [Fmt.shown, Fmt.pending, t5]
        unfold Emit
        rw [hb0, hs0]; exact em5
      have := (em1'.append em4').append em5'
      rw [List.append_nil] at this
      refine this.loosen ?_
      cases hm : f.varDef with
      | none => exact Looser.refl _
      | lastNode => exact Looser.refl _
      | defining => exact absurd hm hd

end Syn
end Alda
