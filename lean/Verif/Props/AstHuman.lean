import Verif.Cmd.AstHuman
import Verif.Props.Terminal

/-!
C83: the printed tree shows the whole tree.
-/
namespace Alda
namespace AstHuman
open Terminal

/-- The text that consists of these lines. -/
def joined : List (List Char) → List Char
  | [] => []
  | [l] => l
  | l :: ls => l ++ '\n' :: joined ls

theorem joined_snoc (ls : List (List Char)) (l : List Char) : joined (ls ++ [l]) = (ls.map (· ++ ['\n'])).flatten ++ l := by
  induction ls with
  | nil => rfl
  | cons x xs ih =>
    have : joined (x :: xs ++ [l]) = x ++ '\n' :: joined (xs ++ [l]) := by cases xs <;> rfl
    rw [this, ih]; simp

theorem splitLines_joined {ls : List (List Char)} (h : ls ≠ [] ∧ ∀ l ∈ ls, '\n' ∉ l) : splitChar '\n' (joined ls) = ls := by
  rcases List.eq_nil_or_concat ls with rfl | ⟨xs, x, rfl⟩
  · exact absurd rfl h.1
  · rw [List.concat_eq_append] at *
    rw [joined_snoc, ← split_unlines xs x (fun l hl => h.2 l (by simp [hl])) (h.2 x (by simp)), unlines, List.flatMap_def]

theorem trimNewlines_snoc (s : List Char) (c : Char) (h : c ≠ '\n') : trimNewlines (s ++ [c] ++ ['\n']) = s ++ [c] := by
  simp [trimNewlines, h]

/-- The type is a name, and the literal is written on one line. -/
def Printable (type : List Char) (literal : Option (List Char)) : Prop :=
  type ≠ [] ∧ (∀ c ∈ type, c.isAlphanum = true) ∧ ∀ l, literal = some l → '\n' ∉ l

mutual
/-- This holds of all nodes of the tree. -/
def Good : Node → Prop
  | .mk type _ literal children => Printable type literal ∧ AllGood children
/-- The same for lists. -/
def AllGood : List Node → Prop
  | [] => True
  | n :: ns => Good n ∧ AllGood ns
end

mutual
/-- The nodes of a tree with their depths, each before its children. -/
def outline (depth : Nat) : Node → List (Nat × List Char × Option (Nat × Nat) × Option (List Char))
  | .mk type position literal children => (depth, type, position, literal) :: outlines (depth + 1) children
/-- The same for lists. -/
def outlines (depth : Nat) : List Node → List (Nat × List Char × Option (Nat × Nat) × Option (List Char))
  | [] => []
  | n :: ns => outline depth n ++ outlines depth ns
end

/-- Text up to the first of certain characters is determined. -/
theorem append_stop {p : Char → Prop} : ∀ {a a' r r' : List Char}, (∀ c ∈ a, p c) → (∀ c ∈ a', p c) → (∀ c, r.head? = some c → ¬ p c) → (∀ c, r'.head? = some c → ¬ p c) →
    a ++ r = a' ++ r' → a = a' ∧ r = r'
  | [], [], _, _, _, _, _, _, e => ⟨rfl, e⟩
  | [], c :: a', _, _, _, h', hr, _, e => by
    rw [List.nil_append] at e
    subst e
    exact absurd (h' c (by simp)) (hr c (by simp))
  | c :: a, [], _, _, h, _, _, hr, e => by
    rw [List.nil_append] at e
    subst e
    exact absurd (h c (by simp)) (hr c (by simp))
  | c :: a, c' :: a', _, _, h, h', hr, hr', e => by
    simp only [List.cons_append, List.cons.injEq] at e
    obtain ⟨k1, k2⟩ := append_stop (fun x hx => h x (List.mem_cons_of_mem _ hx)) (fun x hx => h' x (List.mem_cons_of_mem _ hx)) hr hr' e.2
    exact ⟨by rw [e.1, k1], k2⟩

theorem digits_inj {m n : Nat} (h : Nat.toDigits 10 m = Nat.toDigits 10 n) : m = n := by
  rw [← Nat.ofDigitChars_toDigits (b := 10) (n := m) (by decide) (by decide), h, Nat.ofDigitChars_toDigits (by decide) (by decide)]

theorem digits_isDigit (n : Nat) : ∀ c ∈ Nat.toDigits 10 n, c.isDigit = true := fun _ hc => Nat.isDigit_of_mem_toDigits (by decide) (by decide) hc

theorem literalText_inj {l l' : Option (List Char)} (h : literalText l = literalText l') : l = l' := by
  cases l <;> cases l' <;> simp_all [literalText]

theorem literalText_head (l : Option (List Char)) : ∀ c, (literalText l).head? = some c → c = ':' := by
  cases l <;> simp [literalText]

theorem label_inj {t t' : List Char} {p p' : Option (Nat × Nat)} {l l' : Option (List Char)} (h : Printable t l) (h' : Printable t' l') (e : label t p l = label t' p' l') :
    t = t' ∧ p = p' ∧ l = l' := by
  have head : ∀ (p : Option (Nat × Nat)) l c, (positionText p ++ literalText l).head? = some c → ¬ c.isAlphanum = true := by
    intro p l c hc
    cases p with
    | none => rw [literalText_head l c hc]; decide
    | some x => simp [positionText] at hc; rw [← hc]; decide
  unfold label at e
  rw [List.append_assoc, List.append_assoc] at e
  obtain ⟨e1, e2⟩ := append_stop (p := fun c => c.isAlphanum = true) h.2.1 h'.2.1 (head p l) (head p' l') e
  refine ⟨e1, ?_⟩
  cases p with
  | none =>
    cases p' with
    | none => exact ⟨rfl, literalText_inj e2⟩
    | some x => cases l <;> simp [positionText, literalText] at e2
  | some x =>
    cases p' with
    | none => cases l' <;> simp [positionText, literalText] at e2
    | some x' =>
      obtain ⟨a, b⟩ := x
      obtain ⟨a', b'⟩ := x'
      simp only [positionText, List.append_assoc] at e2
      have e3 := List.append_cancel_left e2
      obtain ⟨e4, e5⟩ := append_stop (p := fun c => c.isDigit = true) (digits_isDigit a) (digits_isDigit a') (by simp) (by simp) e3
      have e6 := List.append_cancel_left e5
      obtain ⟨e7, e8⟩ := append_stop (p := fun c => c.isDigit = true) (digits_isDigit b) (digits_isDigit b') (by simp) (by simp) e6
      rw [digits_inj e4, digits_inj e7]
      exact ⟨rfl, literalText_inj (List.append_cancel_left e8)⟩

theorem label_line {t : List Char} {p : Option (Nat × Nat)} {l : Option (List Char)} (h : Printable t l) : '\n' ∉ label t p l ∧ label t p l ≠ [] ∧ (label t p l).head? ≠ some ' ' := by
  obtain ⟨h1, h2, h3⟩ := h
  refine ⟨?_, by simp [label, h1], ?_⟩
  · have hd : ∀ n, '\n' ∉ Nat.toDigits 10 n := fun n hn => absurd (digits_isDigit n _ hn) (by decide)
    have ht : '\n' ∉ t := fun hn => absurd (h2 _ hn) (by decide)
    unfold label
    simp only [List.mem_append, not_or]
    refine ⟨⟨ht, ?_⟩, ?_⟩
    · cases p <;> simp [positionText, hd]
    · cases l with
      | none => simp [literalText]
      | some x => simp [literalText, h3 x rfl]
  · cases t with
    | nil => exact absurd rfl h1
    | cons c t =>
      intro hc
      simp [label] at hc
      exact absurd (h2 c (by simp)) (by rw [hc]; decide)

/-- The line of a node. -/
def lineOf (x : Nat × List Char × Option (Nat × Nat) × Option (List Char)) : List Char := List.replicate (2 * x.1) ' ' ++ label x.2.1 x.2.2.1 x.2.2.2

theorem indent_label {t : List Char} {p : Option (Nat × Nat)} {l : Option (List Char)} (h : Printable t l) (d : Nat) :
    indent d (label t p l) = lineOf (d, t, p, l) := by
  obtain ⟨h1, h2, -⟩ := label_line (p := p) h
  unfold indent lineOf
  rw [splitChar_plain '\n' _ h1]
  rcases List.eq_nil_or_concat (label t p l) with e | ⟨s, c, e⟩
  · exact absurd e h2
  · rw [List.concat_eq_append] at e
    have hc : c ≠ '\n' := by rintro rfl; apply h1; rw [e]; simp
    have := trimNewlines_snoc (List.replicate (2 * d) ' ' ++ s) c hc
    simp only [List.map_cons, List.map_nil, unlines, List.flatMap_cons, List.flatMap_nil, List.append_nil]
    rw [e, ← List.append_assoc (List.replicate (2 * d) ' ')]
    exact this

mutual
theorem write_outline (d : Nat) : ∀ n, Good n → write d n = ((outline d n).map (fun x => lineOf x ++ ['\n'])).flatten
  | .mk t p l cs, h => by
    unfold Good at h
    simp only [write, outline, List.map_cons, List.flatten_cons]
    rw [indent_label h.1, writeAll_outlines (d + 1) cs h.2]
theorem writeAll_outlines (d : Nat) : ∀ ns, AllGood ns → writeAll d ns = ((outlines d ns).map (fun x => lineOf x ++ ['\n'])).flatten
  | [], _ => by simp [writeAll, outlines]
  | n :: ns, h => by
    unfold AllGood at h
    simp only [writeAll, outlines, List.map_append, List.flatten_append]
    rw [write_outline d n h.1, writeAll_outlines d ns h.2]
end

mutual
theorem outline_good (d : Nat) : ∀ n, Good n → ∀ x ∈ outline d n, Printable x.2.1 x.2.2.2
  | .mk t p l cs, h => by
    unfold Good at h
    intro x hx
    simp only [outline, List.mem_cons] at hx
    rcases hx with rfl | hx
    · exact h.1
    · exact outlines_good (d + 1) cs h.2 x hx
theorem outlines_good (d : Nat) : ∀ ns, AllGood ns → ∀ x ∈ outlines d ns, Printable x.2.1 x.2.2.2
  | [], _ => by simp [outlines]
  | n :: ns, h => by
    unfold AllGood at h
    intro x hx
    simp only [outlines, List.mem_append] at hx
    rcases hx with hx | hx
    · exact outline_good d n h.1 x hx
    · exact outlines_good d ns h.2 x hx
end

theorem outline_ne (d : Nat) (n : Node) : outline d n ≠ [] := by
  cases n; simp [outline]

/-- C83: every node is on a line of its own, each before its children, two spaces further to the right for each level, with its type, position and literal. -/
theorem c83_outline {n : Node} (h : Good n) : humanReadable n = joined ((outline 0 n).map lineOf) := by
  have hg := outline_good 0 n h
  unfold humanReadable
  rw [write_outline 0 n h]
  rcases List.eq_nil_or_concat (outline 0 n) with e | ⟨xs, x, e⟩
  · exact absurd e (outline_ne 0 n)
  · rw [List.concat_eq_append] at e
    rw [e] at hg ⊢
    obtain ⟨k1, k2, -⟩ := label_line (p := x.2.2.1) (hg x (by simp))
    have hx : ∃ s c, lineOf x = s ++ [c] ∧ c ≠ '\n' := by
      rcases List.eq_nil_or_concat (label x.2.1 x.2.2.1 x.2.2.2) with e' | ⟨s, c, e'⟩
      · exact absurd e' k2
      · refine ⟨List.replicate (2 * x.1) ' ' ++ s, c, by unfold lineOf; rw [e', List.concat_eq_append, List.append_assoc], fun hc => k1 ?_⟩
        rw [e', hc]; simp
    obtain ⟨s, c, e2, hc⟩ := hx
    rw [List.map_append, List.map_append, List.map_singleton, List.map_singleton, joined_snoc, List.flatten_append, e2]
    simp only [List.flatten_singleton, List.map_map, Function.comp_def]
    rw [← List.append_assoc, ← List.append_assoc, trimNewlines_snoc _ _ hc]

/-- What follows a list of siblings is higher up. -/
def Above (d : Nat) (r : List (Nat × List Char × Option (Nat × Nat) × Option (List Char))) : Prop := ∀ x, r.head? = some x → x.1 < d

mutual
theorem outline_inj (d : Nat) : ∀ (n n' : Node) r r', Above (d + 1) r → Above (d + 1) r' → outline d n ++ r = outline d n' ++ r' → n = n' ∧ r = r'
  | .mk t p l cs, .mk t' p' l' cs', r, r', h, h', e => by
    simp only [outline, List.cons_append, List.cons.injEq, Prod.mk.injEq, true_and] at e
    obtain ⟨⟨rfl, rfl, rfl⟩, e⟩ := e
    obtain ⟨rfl, rfl⟩ := outlines_inj (d + 1) cs cs' r r' h h' e
    exact ⟨rfl, rfl⟩
theorem outlines_inj (d : Nat) : ∀ (ns ns' : List Node) r r', Above d r → Above d r' → outlines d ns ++ r = outlines d ns' ++ r' → ns = ns' ∧ r = r'
  | [], [], _, _, _, _, e => ⟨rfl, e⟩
  | [], .mk t p l cs :: ns', r, r', h, _, e => by
    simp only [outlines, List.nil_append, outline, List.cons_append] at e
    exact absurd (h _ (by rw [e]; rfl)) (by simp)
  | .mk t p l cs :: ns, [], r, r', _, h, e => by
    simp only [outlines, List.nil_append, outline, List.cons_append] at e
    exact absurd (h _ (by rw [← e]; rfl)) (by simp)
  | n :: ns, n' :: ns', r, r', h, h', e => by
    simp only [outlines, List.append_assoc] at e
    have above : ∀ (ns : List Node) r, Above d r → Above (d + 1) (outlines d ns ++ r) := by
      intro ns r h x hx
      cases ns with
      | nil => simp only [outlines, List.nil_append] at hx; exact Nat.lt_succ_of_lt (h x hx)
      | cons m ms =>
        cases m
        simp only [outlines, outline, List.cons_append, List.head?_cons, Option.some.injEq] at hx
        rw [← hx]; simp
    obtain ⟨rfl, e'⟩ := outline_inj d n n' _ _ (above ns r h) (above ns' r' h') e
    obtain ⟨rfl, rfl⟩ := outlines_inj d ns ns' r r' h h' e'
    exact ⟨rfl, rfl⟩
end

theorem lineOf_inj {x y : Nat × List Char × Option (Nat × Nat) × Option (List Char)} (hx : Printable x.2.1 x.2.2.2) (hy : Printable y.2.1 y.2.2.2) (e : lineOf x = lineOf y) : x = y := by
  obtain ⟨d, t, p, l⟩ := x
  obtain ⟨d', t', p', l'⟩ := y
  have h1 := (label_line (p := p) hx).2.2
  have h2 := (label_line (p := p') hy).2.2
  obtain ⟨e1, e2⟩ := append_stop (p := (· = ' ')) (fun c hc => List.eq_of_mem_replicate hc) (fun c hc => List.eq_of_mem_replicate hc)
    (fun c hc => by rintro rfl; exact h1 hc) (fun c hc => by rintro rfl; exact h2 hc) e
  have := congrArg List.length e1
  simp only [List.length_replicate] at this
  obtain ⟨rfl, rfl, rfl⟩ := label_inj hx hy e2
  simp only [Prod.mk.injEq, and_true]
  omega

theorem lineOf_map_inj : ∀ {xs ys : List (Nat × List Char × Option (Nat × Nat) × Option (List Char))}, (∀ x ∈ xs, Printable x.2.1 x.2.2.2) → (∀ y ∈ ys, Printable y.2.1 y.2.2.2) →
    xs.map lineOf = ys.map lineOf → xs = ys
  | [], [], _, _, _ => rfl
  | [], _ :: _, _, _, e => by simp at e
  | _ :: _, [], _, _, e => by simp at e
  | x :: xs, y :: ys, hx, hy, e => by
    simp only [List.map_cons, List.cons.injEq] at e
    rw [lineOf_inj (hx x (by simp)) (hy y (by simp)) e.1, lineOf_map_inj (fun x h => hx x (List.mem_cons_of_mem _ h)) (fun y h => hy y (List.mem_cons_of_mem _ h)) e.2]

/-- C83: nothing is lost: trees that are printed alike are the same, with all positions and literals. -/
theorem c83_faithful {n n' : Node} (h : Good n) (h' : Good n') (e : humanReadable n = humanReadable n') : n = n' := by
  have lines : ∀ {n : Node}, Good n → (outline 0 n).map lineOf ≠ [] ∧ ∀ l ∈ (outline 0 n).map lineOf, '\n' ∉ l := by
    intro n h
    refine ⟨by simpa using outline_ne 0 n, fun l hl => ?_⟩
    obtain ⟨x, hx, rfl⟩ := List.mem_map.1 hl
    simpa [lineOf] using (label_line (p := x.2.2.1) (outline_good 0 n h x hx)).1
  rw [c83_outline h, c83_outline h'] at e
  have e := congrArg (splitChar '\n') e
  rw [splitLines_joined (lines h), splitLines_joined (lines h')] at e
  have e := lineOf_map_inj (outline_good 0 n h) (outline_good 0 n' h') e
  exact (outline_inj 0 n n' [] [] (by intro x hx; cases hx) (by intro x hx; cases hx) (by simpa using e)).1

/-- The tree of a part with a note. -/
example : humanReadable (.mk "RootNode".toList none none [.mk "PartNode".toList (some (1, 1)) none [.mk "NoteLetterNode".toList (some (1, 8)) (some "\"c\"".toList) []],
      .mk "BarlineNode".toList (some (2, 10)) none []]) =
      "RootNode\n  PartNode [1:1]\n    NoteLetterNode [1:8]: \"c\"\n  BarlineNode [2:10]".toList ∧
    Good (.mk "RootNode".toList none none [.mk "NoteLetterNode".toList (some (1, 8)) (some "\"c\"".toList) []]) :=
  ⟨by decide +kernel, by
    simp only [Good, AllGood, Printable, and_true]
    exact ⟨⟨by decide +kernel, by decide +kernel, by simp⟩, by decide +kernel, by decide +kernel, by simp⟩⟩

end AstHuman
end Alda
