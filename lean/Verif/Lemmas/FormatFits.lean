import Verif.Lemmas.FormatRun
/-!
The formatter never fails on a tree that the parser can produce.
-/
namespace Alda
namespace Syn
open Spec Tree

/-- What a step of the formatter does not disturb. -/
def Kept (f f' : Fmt) : Prop :=
  f'.indentLevel = f.indentLevel ∧ (f'.varDef = f.varDef ∨ (f.varDef = .lastNode ∧ f'.varDef = .none))

/-- A step succeeds, in a definition only if `b`. -/
def Fine (b : Bool) (g : Fmt → Except Err Fmt) : Prop :=
  ∀ f : Fmt, 0 ≤ f.indentLevel → (f.varDef = .defining → b = true) → ∃ f', g f = .ok f' ∧ Kept f f'

theorem Kept.refl (f : Fmt) : Kept f f := ⟨rfl, Or.inl rfl⟩

theorem Kept.trans {f g h : Fmt} (h1 : Kept f g) (h2 : Kept g h) : Kept f h := by
  refine ⟨h2.1.trans h1.1, ?_⟩
  rcases h1.2 with a | ⟨a, a'⟩
  · rw [← a]; exact h2.2
  · rcases h2.2 with b | ⟨b, _⟩
    · exact Or.inr ⟨a, b.trans a'⟩
    · rw [a'] at b; cases b

theorem Kept.defining {f g : Fmt} (h : Kept f g) (hd : g.varDef = .defining) : f.varDef = .defining := by
  rcases h.2 with a | ⟨_, a⟩
  · rw [← a]; exact hd
  · rw [a] at hd; cases hd

theorem Fine.weaken {b b' : Bool} {g : Fmt → Except Err Fmt} (h : Fine b g) (hb : b' = true → b = true) : Fine b' g :=
  fun f hf hd => h f hf fun hx => hb (hd hx)

theorem Fine.congr {b : Bool} {g g' : Fmt → Except Err Fmt} (h : Fine b g) (e : ∀ f, g' f = g f) : Fine b g' := by
  intro f hf hd
  rw [e]; exact h f hf hd

theorem Fine.bind {b b' : Bool} {g h : Fmt → Except Err Fmt} (hg : Fine b g) (hh : Fine b' h) : Fine (b && b') (fun f => g f >>= h) := by
  intro f hf hd
  obtain ⟨f1, e1, k1⟩ := hg f hf fun hx => by have := hd hx; simp at this; exact this.1
  obtain ⟨f2, e2, k2⟩ := hh f1 (by rw [k1.1]; exact hf) fun hx => by have := hd (k1.defining hx); simp at this; exact this.2
  exact ⟨f2, by simp only [e1, ok_bind, e2], k1.trans k2⟩

theorem Fine.nothing (b : Bool) : Fine b (fun f => .ok f) := fun f _ _ => ⟨f, rfl, Kept.refl f⟩

theorem line_fine {f : Fmt} (h : 0 ≤ f.indentLevel) : ∃ l, f.line = .ok l := by
  unfold Fmt.line
  simp only
  split
  · exact ⟨_, rfl⟩
  · rw [repeatText, if_neg (by omega)]
    exact ⟨_, rfl⟩

theorem flush_fine {f : Fmt} (h : 0 ≤ f.indentLevel) : ∃ f', f.flush = .ok f' ∧ f'.indentLevel = f.indentLevel ∧ f'.varDef = f.varDef := by
  unfold Fmt.flush
  obtain ⟨l, hl⟩ := line_fine h
  split
  · rw [hl]; exact ⟨_, rfl, rfl, rfl⟩
  · exact ⟨f, rfl, rfl, rfl⟩

theorem Fine.flush (b : Bool) : Fine b Fmt.flush := by
  intro f hf _
  obtain ⟨f', e, h1, h2⟩ := flush_fine hf
  exact ⟨f', e, h1, Or.inl h2⟩

theorem Fine.write (b : Bool) (text : List Char) : Fine b (Fmt.write text) := by
  intro f hf _
  unfold Fmt.write
  obtain ⟨l, hl⟩ := line_fine (f := { f with texts := f.texts ++ [text] }) hf
  simp only [hl, ok_bind]
  split
  · obtain ⟨f', e, h1, h2⟩ := flush_fine hf
    rw [e]
    exact ⟨_, rfl, h1, Or.inl h2⟩
  · exact ⟨_, rfl, rfl, Or.inl rfl⟩

theorem Fine.emptyLine (b : Bool) : Fine b Fmt.emptyLine := by
  intro f hf _
  unfold Fmt.emptyLine
  split
  · obtain ⟨f', e, h1, h2⟩ := flush_fine hf
    rw [e]
    exact ⟨_, rfl, h1, Or.inl h2⟩
  · exact ⟨f, rfl, Kept.refl f⟩

theorem indent_defining {f : Fmt} (h : f.varDef = .defining) : f.indent = .ok f := by
  unfold Fmt.indent; rw [h]

theorem indent_other {f : Fmt} (h : f.varDef ≠ .defining) (hf : 0 ≤ f.indentLevel) :
    ∃ f', f.indent = .ok f' ∧ f'.indentLevel = f.indentLevel + 1 ∧ f'.varDef = .none := by
  obtain ⟨f1, e1, l1, m1⟩ := flush_fine (f := { f with varDef := .none }) hf
  refine ⟨{ f1 with indentLevel := f1.indentLevel + 1 }, ?_, by simp only [l1], m1⟩
  unfold Fmt.indent
  cases hm : f.varDef with
  | defining => exact absurd hm h
  | _ => simp only; rw [e1]; rfl

theorem unindent_none {f : Fmt} (h : f.varDef = .none) (hf : 0 ≤ f.indentLevel) :
    ∃ f', f.unindent = .ok f' ∧ f'.indentLevel = f.indentLevel - 1 ∧ f'.varDef = .none := by
  obtain ⟨f1, e1, l1, m1⟩ := flush_fine hf
  refine ⟨{ f1 with indentLevel := f1.indentLevel - 1 }, ?_, by simp only [l1], m1.trans h⟩
  unfold Fmt.unindent
  rw [if_pos h, e1]; rfl

/-- What stands between `indent` and `unindent`. -/
theorem Fine.block {b : Bool} {g : Fmt → Except Err Fmt} (hg : Fine b g) : Fine b (fun f => f.indent >>= fun f => g f >>= Fmt.unindent) := by
  intro f hf hd
  by_cases hm : f.varDef = .defining
  · obtain ⟨f1, e1, k1⟩ := hg f hf hd
    have hm1 : f1.varDef = .defining := by
      rcases k1.2 with a | ⟨a, _⟩
      · rw [a]; exact hm
      · rw [hm] at a; cases a
    refine ⟨f1, ?_, k1⟩
    simp only [indent_defining hm, ok_bind, e1]
    unfold Fmt.unindent
    rw [if_neg (by simp [hm1])]
  · obtain ⟨f1, e1, l1, m1⟩ := indent_other hm hf
    obtain ⟨f2, e2, k2⟩ := hg f1 (by omega) (by simp [m1])
    have hm2 : f2.varDef = .none := by
      rcases k2.2 with a | ⟨_, a⟩
      · rw [a]; exact m1
      · exact a
    obtain ⟨f3, e3, l3, m3⟩ := unindent_none hm2 (by rw [k2.1]; omega)
    refine ⟨f3, by simp only [e1, ok_bind, e2, e3], by rw [l3, k2.1, l1]; omega, ?_⟩
    cases hx : f.varDef with
    | none => exact Or.inl m3
    | lastNode => exact Or.inr ⟨rfl, m3⟩
    | defining => exact absurd hx hm

theorem Fine.duration (post : List Char) (b : Bool) : ∀ (cs : List Comp) (text : List Char) (tie : Bool), Fine b (fmtDuration post (cs.map Comp.node) text tie)
  | [], text, tie => by
    cases h : text.isEmpty with
    | true => exact (Fine.nothing b).congr fun f => by simp [fmtDuration, h]
    | false => exact (Fine.write b (text ++ post)).congr fun f => by simp [fmtDuration, h]
  | c :: cs, text, tie => by
    by_cases hc : c = .bar
    · have h1 : ∀ T : List Char, Fine b (fun f => if T.isEmpty then .ok f else f.write T) := fun T => by
        cases h : T.isEmpty with
        | true => exact (Fine.nothing b).congr fun f => by simp
        | false => exact (Fine.write b T).congr fun f => by simp
      have h2 := Fine.bind (h1 (if (cs.map Comp.node).isEmpty then text ++ post else text))
        (Fine.bind (Fine.write b ['|']) (Fine.duration post b cs [] tie))
      simp only [Bool.and_self] at h2
      exact h2.congr fun f => by simp only [List.map_cons, fmtDuration, comp_type, hc, if_true]
    · exact (Fine.duration post b cs (text ++ tieText tie ++ c.text) true).congr fun f => by
        simp only [List.map_cons, fmtDuration, comp_type, hc, if_false, lengthText_node hc, ok_bind]

theorem Fine.note (c : Char) (accs : List Accidental) (d : List Comp) (slur b : Bool) : Fine b (fmtEvent (Ev.node (.note c accs d slur))) := by
  have hp := pitchText_node c accs
  simp only [Ev.node]
  generalize (branch .noteLetterAndAccidentals (atom .noteLetter (.chr c) ::
      (if accs.isEmpty then [] else [branch .noteAccidentals (accs.map accNode)]))) = laa at hp ⊢
  simp only [branch, fmtEvent]
  cases d with
  | nil =>
    refine (Fine.write b (c :: accs.map accChar ++ tieText slur)).congr fun f => ?_
    cases slur
    · simp only [fmtNote, durNodes, List.isEmpty_nil, if_true, Bool.false_eq_true, if_false, List.append_nil, List.length_nil, hp]
      simp [ok_bind, tieText]
    · simp only [fmtNote, durNodes, List.isEmpty_nil, if_true]
      simp [tieText, atom, Node.type, hp, ok_bind]
  | cons x d =>
    refine (Fine.duration (tieText slur) b (x :: d) (c :: accs.map accChar) false).congr fun f => ?_
    cases slur
    · simp only [fmtNote, durNodes, List.isEmpty_cons, Bool.false_eq_true, if_false, List.append_nil, List.length_singleton, hp]
      simp [ok_bind, tieText, branch, Node.type, Node.children]
    · simp only [fmtNote, durNodes, List.isEmpty_cons, Bool.false_eq_true, if_false, if_true]
      simp [tieText, branch, atom, Node.type, Node.children, hp, ok_bind]

theorem Fine.rest (d : List Comp) (b : Bool) : Fine b (fmtEvent (Ev.node (.rest d))) := by
  simp only [Ev.node, branch, fmtEvent]
  cases d with
  | nil => exact (Fine.write b ['r']).congr fun f => by simp [durNodes, fmtRest]
  | cons x d =>
    refine (Fine.duration [] b (x :: d) ['r'] false).congr fun f => ?_
    simp [durNodes, fmtRest, branch, Node.expect, Node.type, Node.children, ok_bind]

theorem Fine.cramEnd (d : List Comp) (b : Bool) : Fine b (fmtCramEnd (durNodes d)) := by
  cases d with
  | nil => exact (Fine.write b ['}']).congr fun f => by simp [durNodes, fmtCramEnd]
  | cons x d =>
    refine (Fine.duration [] b (x :: d) ['}'] false).congr fun f => ?_
    simp [durNodes, fmtCramEnd, branch, Node.expect, Node.type, Node.children, ok_bind]

mutual
theorem Ev.fine : ∀ (e : Ev), e.fit → Fine e.oneLine (fmtEvent e.node)
  | .note c accs d slur, _ => Fine.note c accs d slur _
  | .rest d, _ => Fine.rest d _
  | .chord es, h => by
    simp only [Ev.fit] at h
    refine (chord_fine es h.2).congr fun f => ?_
    have : (nodes es).isEmpty = false := by
      cases es with
      | nil => exact absurd rfl h.1
      | cons e es => rfl
    simp [Ev.node, branch, fmtEvent, this]
  | .up, _ => Fine.write _ _
  | .down, _ => Fine.write _ _
  | .oct n, _ => (Fine.write _ ('o' :: natDigits n)).congr fun f => by
      simp [Ev.node, atom, fmtEvent, Lit.asInt, ok_bind, intDigits_nat]
  | .bar, _ => Fine.write _ _
  | .marker s, _ => (Fine.write _ ('%' :: s.toList)).congr fun f => by simp [Ev.node, atom, fmtEvent, Lit.asStr, ok_bind]
  | .at s, _ => (Fine.write _ ('@' :: s.toList)).congr fun f => by simp [Ev.node, atom, fmtEvent, Lit.asStr, ok_bind]
  | .ref s, _ => (Fine.write _ s.toList).congr fun f => by simp [Ev.node, atom, fmtEvent, Lit.asStr, ok_bind]
  | .defn s es, h => by
    simp only [Ev.fit] at h
    intro f hf hb
    have hd : f.varDef ≠ .defining := fun h => by simpa [Ev.oneLine] using hb h
    simp only [Ev.node, branch, atom, fmtEvent]
    obtain ⟨f1, e1, l1, m1⟩ := flush_fine hf
    obtain ⟨f2, e2, k2⟩ := Fine.write true (s.toList ++ [' ', '=']) { f1 with varDef := .defining } (by simp only [l1]; exact hf) (fun _ => rfl)
    have hm2 : f2.varDef = .defining := by
      rcases k2.2 with a | ⟨a, _⟩
      · exact a
      · cases a
    have hl2 : f2.indentLevel = f.indentLevel := k2.1.trans l1
    obtain ⟨f3, e3, l3⟩ := definition_fine es h.1 h.2 f2 (by rw [hl2]; exact hf) hm2
    obtain ⟨f4, e4, l4, m4⟩ := flush_fine (f := { f3 with varDef := .none }) (by simp only [l3, hl2]; exact hf)
    refine ⟨f4, ?_, l4.trans (l3.trans hl2), ?_⟩
    · simp only [Node.expect, Node.type, if_true, ok_bind, Node.lit, Lit.asStr, e1, e2, ne_eq, not_true_eq_false, if_false, e3, e4]
    · cases hm : f.varDef with
      | none => exact Or.inl m4
      | lastNode => exact Or.inr ⟨rfl, m4⟩
      | defining => exact absurd hm hd
  | .sexp fs, _ => (Fine.write _ ('(' :: (formTexts fs ++ [')']))).congr fun f => by
      have := lispText_node (.list fs)
      simp only [Form.node, Form.text, branch] at this
      simp only [Ev.node, branch, fmtEvent, this, ok_bind]
  | .seq es, h => by
    simp only [Ev.fit] at h
    have h1 := Fine.bind (Fine.flush true) (Fine.bind (Fine.write true ['[']) (Fine.bind (Fine.block (events_fine es h)) (Fine.write true [']'])))
    simp only [Bool.true_and, Bool.and_true] at h1
    refine h1.congr fun f => ?_
    simp only [Ev.node, branch, fmtEvent, bind_assoc]
  | .cram es d, h => by
    simp only [Ev.fit] at h
    have h1 := Fine.bind (Fine.write true ['{']) (Fine.bind (events_fine es h) (Fine.cramEnd d true))
    simp only [Bool.true_and, Bool.and_true] at h1
    refine h1.congr fun f => ?_
    have hl : ¬ (durNodes d).length > 1 := by unfold durNodes; split <;> simp
    simp only [Ev.node, branch, fmtEvent, hl, if_false, ne_eq, not_true_eq_false]
  | .voice n es, h => by
    simp only [Ev.fit] at h
    have h1 := Fine.bind (Fine.write true ('V' :: (natDigits n ++ [':']))) (Fine.block (events_fine es h))
    simp only [Bool.true_and] at h1
    refine h1.congr fun f => ?_
    simp only [Ev.node, branch, atom, fmtEvent, Node.expect, Node.type, if_true, ok_bind, Node.lit, Lit.asInt, intDigits_nat, ne_eq, not_true_eq_false, if_false]
  | .voiceEnd, _ => Fine.write _ _
  | .group vs, h => by
    simp only [Ev.fit] at h
    have h1 := Fine.bind (Fine.flush true) (events_fine vs h)
    simp only [Bool.true_and] at h1
    exact h1.congr fun f => by simp only [Ev.node, branch, fmtEvent]
  | .rep e n, h => by
    simp only [Ev.fit] at h
    have h1 := Fine.bind (Ev.fine e h) (Fine.write true ('*' :: natDigits n))
    rw [Bool.and_true] at h1
    refine h1.congr fun f => ?_
    simp only [Ev.node, branch, atom, fmtEvent, Node.expect, Node.type, if_true, ok_bind, Node.lit, Lit.asInt, intDigits_nat]
  | .onReps e rs, h => by
    simp only [Ev.fit] at h
    have h1 := Fine.bind (Ev.fine e h) (Fine.write true (rangesText rs))
    rw [Bool.and_true] at h1
    refine h1.congr fun f => ?_
    have ht : (rangesNodes rs).type = .repetitions := rfl
    simp only [Ev.node, branch, fmtEvent, Node.expect, ht, if_true, ok_bind, rangeTexts_node, rangesText]
theorem events_fine : ∀ (es : List Ev), allFit es → Fine (allOneLine es) (fmtEvents (nodes es))
  | [], _ => Fine.nothing _
  | e :: es, h => by
    simp only [allFit] at h
    exact Fine.bind (Ev.fine e h.1) (events_fine es h.2)
theorem chord_fine : ∀ (es : List Ev), allFit es → Fine (allOneLine es) (fmtChord (nodes es))
  | [], _ => Fine.nothing _
  | e :: es, h => by
    simp only [allFit] at h
    have hsep : Fine true (fun f => if isNoteNode e.node && (nodes es).any isNoteNode then f.write ['/'] else .ok f) := by
      cases hx : (isNoteNode e.node && (nodes es).any isNoteNode) with
      | true => exact (Fine.write true ['/']).congr fun f => by simp
      | false => exact (Fine.nothing true).congr fun f => by simp
    have h1 := Fine.bind (Ev.fine e h.1) (Fine.bind hsep (chord_fine es h.2))
    rw [Bool.true_and] at h1
    exact h1.congr fun f => by simp only [nodes, fmtChord]
theorem definition_fine : ∀ (es : List Ev), allFit es → inLine es → ∀ f : Fmt, 0 ≤ f.indentLevel → f.varDef = .defining →
    ∃ f', fmtDefinition (nodes es) f = .ok f' ∧ f'.indentLevel = f.indentLevel
  | [], _, _, f, _, _ => ⟨f, rfl, rfl⟩
  | [e], h, _, f, hf, _ => by
    simp only [allFit] at h
    obtain ⟨f1, e1, k1⟩ := Ev.fine e h.1 { f with varDef := .lastNode } hf (by simp)
    exact ⟨f1, by simpa only [nodes, fmtDefinition] using e1, k1.1⟩
  | e :: e' :: es, h, hl, f, hf, hm => by
    simp only [allFit] at h
    obtain ⟨f1, e1, k1⟩ := Ev.fine e h.1 f hf (fun _ => hl.1 (by simp))
    have hm1 : f1.varDef = .defining := by
      rcases k1.2 with a | ⟨a, _⟩
      · rw [a]; exact hm
      · rw [hm] at a; cases a
    obtain ⟨f2, e2, l2⟩ := definition_fine (e' :: es) (by simp only [allFit]; exact h.2) hl.2 f1 (by rw [k1.1]; exact hf) hm1
    refine ⟨f2, ?_, l2.trans k1.1⟩
    simp only [nodes] at e2 ⊢
    rw [fmtDefinition, e1]
    · exact e2
    · simp
end

theorem part_fine {p : Tree.Part} (h : p.fit) : Fine false (fmtPart p.node) := by
  cases p with
  | implicit es =>
    refine ((events_fine es h).weaken (by simp)).congr fun f => ?_
    simp [Part.node, fmtPart, branch, Node.type, Node.children, Node.expect, ok_bind]
  | declared n ns alias es =>
    have h1 := (Fine.bind (Fine.write true (declText n ns alias)) (Fine.block (events_fine es h))).weaken (b' := false) (by simp)
    refine h1.congr fun f => ?_
    cases alias with
    | none =>
      have := declarationText_node n ns none
      simp only [branch] at this
      simp [Part.node, branch, fmtPart, Node.type, Node.children, Node.expect, this, ok_bind]
    | some a =>
      have := declarationText_node n ns (some a)
      simp only [branch] at this
      simp [Part.node, branch, fmtPart, Node.type, Node.children, Node.expect, this, ok_bind]

theorem parts_fine : ∀ (ps : List Tree.Part), (∀ p ∈ ps, p.fit) → Fine false (fmtParts (ps.map Part.node))
  | [], _ => Fine.nothing _
  | p :: ps, h => by
    have hsep : Fine false (fun f => if (ps.map Part.node).isEmpty then .ok f else f.emptyLine) := by
      cases hx : (ps.map Part.node).isEmpty with
      | true => exact (Fine.nothing false).congr fun f => by simp
      | false => exact (Fine.emptyLine false).congr fun f => by simp
    have h1 := Fine.bind (part_fine (h p (by simp))) (Fine.bind (Fine.flush false) (Fine.bind hsep (parts_fine ps fun q hq => h q (by simp [hq]))))
    exact h1.congr fun f => by simp only [List.map_cons, fmtParts]

theorem format_fine {ps : List Tree.Part} (h : ∀ p ∈ ps, p.fit) (width : Int) (indent : List Char) : ∃ out, format width indent (root ps) = .ok out := by
  obtain ⟨f, e, _⟩ := parts_fine ps h (newFormatter width indent) (by simp [newFormatter]) (by simp [newFormatter])
  refine ⟨f.out, ?_⟩
  simp only [format, root, branch, Node.children, e, ok_bind]
  rfl

end Syn
end Alda
