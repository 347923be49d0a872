import Verif.Lemmas.FormatLayout
/-!
The formatter on well-formed trees.
-/
namespace Alda
namespace Syn
open Spec Tree

theorem Run.congr {b : Bool} {g g' : Fmt → Except Err Fmt} {is : List Item} (h : Run b g is) (e : ∀ f, g' f = g f) : Run b g' is := by
  have : g' = g := funext e
  rw [this]; exact h

theorem Run.weaken {b b' : Bool} {g : Fmt → Except Err Fmt} {is : List Item} (h : Run b g is) (hb : b' = true → b = true) : Run b' g is :=
  fun f hf h' => h f hf fun hd => hb (h' hd)

theorem starts_t (g : Bool) (text : List Char) (ks : List Kind) (is : List Item) : Starts (.t g text ks :: is) := ⟨g, text, ks, is, rfl⟩

/-! ### Beginnings -/

theorem durItems_starts (slur : Bool) : ∀ (cs : List Comp) (text : List Char) (ks : List Kind) (b : Bool), text ≠ [] → Starts (durItems slur cs text ks b)
  | [], text, ks, b, h => by simp [durItems, h]; exact starts_t ..
  | c :: cs, text, ks, b, h => by
    unfold durItems
    split
    · refine Starts.append ?_ _
      split <;> simp [piece, h] <;> exact starts_t ..
    · exact durItems_starts slur cs _ _ true (by simp [h])

mutual
theorem Ev.items_starts : ∀ (e : Ev), e.ok → Starts e.items
  | .note .., _ => by simp only [Ev.items]; exact durItems_starts _ _ _ _ _ (by simp)
  | .rest _, _ => by simp only [Ev.items]; exact durItems_starts _ _ _ _ _ (by simp)
  | .chord [], h => by simp [Ev.ok, chordShape] at h
  | .chord (e :: es), h => by
    simp only [Ev.ok, allOk] at h
    simp only [Ev.items, chordItems]
    exact (Ev.items_starts e h.1.1).append _
  | .up, _ => starts_t ..
  | .down, _ => starts_t ..
  | .oct _, _ => starts_t ..
  | .bar, _ => starts_t ..
  | .marker _, _ => starts_t ..
  | .at _, _ => starts_t ..
  | .ref _, _ => starts_t ..
  | .defn _ _, _ => by simp only [Ev.items]; exact starts_t ..
  | .sexp _, _ => starts_t ..
  | .seq _, _ => by simp only [Ev.items]; exact starts_t ..
  | .cram _ _, _ => by simp only [Ev.items]; exact starts_t ..
  | .voice _ _, _ => by simp only [Ev.items]; exact starts_t ..
  | .voiceEnd, _ => starts_t ..
  | .group [], h => by simp [Ev.ok] at h
  | .group (e :: es), h => by
    simp only [Ev.ok, allOk] at h
    simp only [Ev.items, items]
    exact (Ev.items_starts e h.2.1.1).append _
  | .rep e _, h => by simp only [Ev.ok, Ev.items] at h ⊢; exact (Ev.items_starts e h.1).append _
  | .onReps e _, h => by simp only [Ev.ok, Ev.items] at h ⊢; exact (Ev.items_starts e h.1).append _
end

/-! ### Lisp -/

theorem formTexts_join : ∀ fs : List Form, joinSpace (fs.map Form.text) = formTexts fs
  | [] => rfl
  | [f] => by simp [formTexts, joinSpace]
  | f :: g :: fs => by
    have := formTexts_join (g :: fs)
    simp only [List.map_cons, joinSpace, formTexts, List.isEmpty_cons] at this ⊢
    rw [this]; simp

mutual
theorem lispText_node : ∀ f : Form, lispText f.node = .ok f.text
  | .sym s => rfl
  | .num q => rfl
  | .str s => rfl
  | .list fs => by
    simp only [Form.node, branch, lispText, lispTexts_nodes fs, ok_bind, formTexts_join, Form.text]; rfl
  | .quoted f => by
    simp only [Form.node, branch, lispText, lispText_node f, ok_bind, Form.text]; rfl
theorem lispTexts_nodes : ∀ fs : List Form, lispTexts (formNodes fs) = .ok (fs.map Form.text)
  | [] => rfl
  | f :: fs => by simp only [formNodes, lispTexts, lispText_node f, lispTexts_nodes fs, ok_bind]; rfl
end

/-! ### Durations -/

theorem lengthText_node {c : Comp} (h : c ≠ .bar) : lengthText c.node = .ok c.text := by
  cases c with
  | bar => exact absurd rfl h
  | len d dots =>
    by_cases h0 : dots > 0
    · simp only [Comp.node, branch, atom, h0, if_true, lengthText]
      simp only [List.length_singleton, gt_iff_lt, Nat.lt_irrefl, if_false, Node.expect, Node.type, if_true, ok_bind, Node.lit, Lit.asInt, Lit.asNum]
      simp [repeatText, Comp.text, show ¬ ((dots : Int) < 0) from by omega]
      rfl
    · have : dots = 0 := by omega
      subst this
      simp only [Comp.node, branch, atom, h0, if_false, lengthText]
      have e : repeatText ['.'] 0 = .ok [] := rfl
      simp only [List.length_nil, gt_iff_lt, Nat.not_lt_zero, if_false, Node.expect, Node.type, if_true, ok_bind, Node.lit, Lit.asNum]
      show Except.ok (formatFloat d ++ []) = Except.ok (formatFloat d ++ [])
      rfl
  | ms q => rfl
  | sec q => rfl

theorem comp_type (c : Comp) : (c.node.type = .barline) = (c = .bar) := by
  cases c <;> simp [Comp.node, atom, branch, Node.type]

theorem fmtDuration_run (slur : Bool) (bb : Bool) : ∀ (cs : List Comp) (text : List Char) (ks : List Kind) (b : Bool),
    Run bb (fmtDuration (tieText slur) (cs.map Comp.node) text b) (durItems slur cs text ks b)
  | [], text, ks, b => by
    by_cases h : text = []
    · subst h
      simp only [durItems, List.isEmpty_nil, if_true]
      exact (Run.nothing bb).congr fun f => by simp [fmtDuration]
    · have h' : text.isEmpty = false := by simpa using h
      simp only [durItems, h', Bool.false_eq_true, if_false]
      exact (write_run (by simp [h]) _ bb).congr fun f => by simp [fmtDuration, h']
  | c :: cs, text, ks, b => by
    unfold durItems
    by_cases hc : c = .bar
    · rw [if_pos hc]
      have hrest : Run (true && bb) (fun f => f.write ['|'] >>= fmtDuration (tieText slur) (cs.map Comp.node) [] b)
          (.t false ['|'] [barKind] :: durItems slur cs [] [] b) :=
        Run.bind (is := [.t false ['|'] [barKind]]) (write_run (by simp) _ true) (fmtDuration_run slur bb cs [] [] b) (starts_t ..)
      rw [Bool.true_and] at hrest
      have key : ∀ (T : List Char) (K : List Kind), Run bb (fun f => (if T.isEmpty then .ok f else f.write T) >>= fun f =>
          f.write ['|'] >>= fmtDuration (tieText slur) (cs.map Comp.node) [] b) (piece T K ++ .t false ['|'] [barKind] :: durItems slur cs [] [] b) := by
        intro T K
        by_cases h : T = []
        · subst h
          exact hrest.congr fun f => by simp [ok_bind]
        · have h' : T.isEmpty = false := by simpa using h
          simp only [piece, h', Bool.false_eq_true, if_false]
          have := Run.bind (write_run h K true) hrest (starts_t ..)
          rw [Bool.true_and] at this
          exact this
      have hm : (cs.map Comp.node).isEmpty = cs.isEmpty := by cases cs <;> rfl
      cases hcs : cs.isEmpty with
      | true =>
        simp only [if_true]
        exact (key (text ++ tieText slur) (ks ++ slurKinds slur)).congr fun f => by
          simp only [List.map_cons, fmtDuration, comp_type, hc, if_true, hm, hcs]
      | false =>
        simp only [Bool.false_eq_true, if_false]
        exact (key text ks).congr fun f => by
          simp only [List.map_cons, fmtDuration, comp_type, hc, if_true, hm, hcs, Bool.false_eq_true, if_false]
    · rw [if_neg hc]
      exact (fmtDuration_run slur bb cs (text ++ tieText b ++ c.text) _ true).congr fun f => by
        simp only [List.map_cons, fmtDuration, comp_type, hc, if_false, lengthText_node hc, ok_bind]

/-! ### Notes -/

theorem accidentalTexts_node : ∀ accs : List Accidental, accidentalTexts (accs.map accNode) = .ok (accs.map accChar)
  | [] => rfl
  | a :: accs => by
    simp only [List.map_cons, accidentalTexts, accidentalTexts_node accs]
    cases a <;> rfl

theorem pitchText_node (c : Char) (accs : List Accidental) : pitchText (branch .noteLetterAndAccidentals (atom .noteLetter (.chr c) ::
      (if accs.isEmpty then [] else [branch .noteAccidentals (accs.map accNode)]))) = .ok (c :: accs.map accChar) := by
  cases accs with
  | nil => rfl
  | cons a accs =>
    have := accidentalTexts_node (a :: accs)
    simp only [pitchText, List.isEmpty_cons, Bool.false_eq_true, if_false]
    simp [branch, atom, Node.expect, Node.type, Node.children, Node.lit, Lit.asChr, ok_bind]
    simp only [List.map_cons] at this
    rw [this]; rfl

theorem durItems_nil (slur : Bool) (text : List Char) (ks : List Kind) (b : Bool) (h : text ≠ []) :
    durItems slur [] text ks b = [.t false (text ++ tieText slur) (ks ++ slurKinds slur)] := by
  have : text.isEmpty = false := by simpa using h
  simp [durItems, this]

theorem note_run (c : Char) (accs : List Accidental) (d : List Comp) (slur b : Bool) : Run b (fmtEvent (Ev.node (.note c accs d slur))) (Ev.items (.note c accs d slur)) := by
  have hp := pitchText_node c accs
  simp only [Ev.node, Ev.items]
  generalize (branch .noteLetterAndAccidentals (atom .noteLetter (.chr c) ::
      (if accs.isEmpty then [] else [branch .noteAccidentals (accs.map accNode)]))) = laa at hp ⊢
  simp only [branch, fmtEvent]
  cases d with
  | nil =>
    rw [durItems_nil _ _ _ _ (by simp)]
    refine (write_run (text := c :: accs.map accChar ++ tieText slur) (by simp) _ b).congr fun f => ?_
    cases slur
    · simp only [fmtNote, durNodes, List.isEmpty_nil, if_true, Bool.false_eq_true, if_false, List.append_nil, List.length_nil, hp]
      simp [ok_bind, tieText]
    · simp only [fmtNote, durNodes, List.isEmpty_nil, if_true]
      simp [tieText, atom, Node.type, hp, ok_bind]
  | cons x d =>
    refine (fmtDuration_run slur b (x :: d) (c :: accs.map accChar) _ false).congr fun f => ?_
    cases slur
    · simp only [fmtNote, durNodes, List.isEmpty_cons, Bool.false_eq_true, if_false, List.append_nil, List.length_singleton, hp]
      simp [ok_bind, tieText, branch, Node.type, Node.children]
    · simp only [fmtNote, durNodes, List.isEmpty_cons, Bool.false_eq_true, if_false, if_true]
      simp [tieText, branch, atom, Node.type, Node.children, hp, ok_bind]

theorem rest_run (d : List Comp) (b : Bool) : Run b (fmtEvent (Ev.node (.rest d))) (Ev.items (.rest d)) := by
  simp only [Ev.node, Ev.items, branch, fmtEvent]
  cases d with
  | nil =>
    rw [durItems_nil _ _ _ _ (by simp)]
    exact (write_run (text := ['r'] ++ tieText false) (by simp) _ b).congr fun f => by simp [durNodes, fmtRest, tieText]
  | cons x d =>
    refine (fmtDuration_run false b (x :: d) ['r'] _ false).congr fun f => ?_
    simp [durNodes, fmtRest, branch, Node.expect, Node.type, Node.children, ok_bind, tieText]

theorem cramEnd_run (d : List Comp) (b : Bool) : Run b (fmtCramEnd (durNodes d)) (durItems false d ['}'] [(.cramClose, ['}'])] false) := by
  cases d with
  | nil =>
    rw [durItems_nil _ _ _ _ (by simp)]
    exact (write_run (text := ['}'] ++ tieText false) (by simp) _ b).congr fun f => by simp [durNodes, fmtCramEnd, tieText]
  | cons x d =>
    refine (fmtDuration_run false b (x :: d) ['}'] _ false).congr fun f => ?_
    simp [durNodes, fmtCramEnd, branch, Node.expect, Node.type, Node.children, ok_bind, tieText]

theorem isNR_node (e : Ev) : isNoteNode e.node = e.isNR := by cases e <;> simp [Ev.node, isNoteNode, branch, atom, Node.type, Ev.isNR]

theorem any_isNR : ∀ es : List Ev, (nodes es).any isNoteNode = es.any Ev.isNR
  | [] => rfl
  | e :: es => by simp only [nodes, List.any_cons, isNR_node, any_isNR es]

theorem rangeTexts_node : ∀ rs : List (Nat × Nat), rangeTexts (rangesNodes rs).children = .ok (rs.map rangeText)
  | [] => rfl
  | r :: rs => by
    have := rangeTexts_node rs
    simp only [rangesNodes, rangesNode, branch, Node.children, List.map_cons, rangeTexts] at this ⊢
    rw [this]
    simp only [Node.expect, Node.type, if_true, ok_bind, atom, Node.lit, Lit.asInt, intDigits_nat, rangeText, Int.ofNat_inj]
    rfl

/-- Enters a definition. -/
theorem defining_good {f : Fmt} (h : Good f) : ∀ m, f.texts ≠ [] → Good { f with varDef := m } := fun _ ht => ⟨h.level, h.blank, h.words, fun _ => ht⟩

mutual
theorem Ev.run : ∀ (e : Ev), e.ok → Run e.oneLine (fmtEvent e.node) e.items
  | .note c accs d slur, _ => note_run c accs d slur _
  | .rest d, _ => rest_run d _
  | .chord es, h => by
    simp only [Ev.ok] at h
    refine (chordItems_run es h.1).congr fun f => ?_
    have : (nodes es).isEmpty = false := by
      cases es with
      | nil => simp [chordShape] at h
      | cons e es => rfl
    simp [Ev.node, branch, fmtEvent, this]
  | .up, _ => write_run (by simp) _ _
  | .down, _ => write_run (by simp) _ _
  | .oct n, _ => (write_run (text := 'o' :: natDigits n) (by simp) _ _).congr fun f => by
      simp [Ev.node, atom, fmtEvent, Lit.asInt, ok_bind, intDigits_nat]
  | .bar, _ => write_run (by simp) _ _
  | .marker s, _ => (write_run (text := '%' :: s.toList) (by simp) _ _).congr fun f => by simp [Ev.node, atom, fmtEvent, Lit.asStr, ok_bind]
  | .at s, _ => (write_run (text := '@' :: s.toList) (by simp) _ _).congr fun f => by simp [Ev.node, atom, fmtEvent, Lit.asStr, ok_bind]
  | .ref s, h => (write_run (text := s.toList) (by obtain ⟨a, b, cs, e, _⟩ := h; simp [e]) _ _).congr fun f => by
      simp [Ev.node, atom, fmtEvent, Lit.asStr, ok_bind]
  | .defn s es, h => by
    simp only [Ev.ok] at h
    obtain ⟨hn, hne, hok, hsh⟩ := h
    have hs : s.toList ++ [' ', '='] ≠ [] := by simp
    intro f hf hb
    have hd : f.varDef ≠ .defining := fun h => by simpa [Ev.oneLine] using hb h
    simp only [Ev.items, Ev.node, branch, atom, fmtEvent, List.cons_append]
    obtain ⟨f1, e1, g1, k1, em1⟩ : ∃ f1, f.flush = .ok f1 ∧ Good f1 ∧ Keeps f f1 ∧
        Emit f (glued f.varDef [.t false (s.toList ++ [' ', '=']) [(.name, s.toList), (.equals, ['='])]])
          { f1 with texts := f1.texts ++ [s.toList ++ [' ', '=']], varDef := .defining } := by
      cases hm : f.varDef with
      | none =>
        obtain ⟨f1, e1, g1, k1, m1, t1, em1⟩ := flush_run hf hm
        exact ⟨f1, e1, g1, k1, em1.append (push_run g1 hs _ false (by simp)).2⟩
      | lastNode => exact ⟨f, flush_same (by simp [hm]), hf, Keeps.refl f, (push_run hf hs _ true (fun _ => hf.mode (by simp [hm]))).2⟩
      | defining => exact absurd hm hd
    have g2 : Good { f1 with texts := f1.texts ++ [s.toList ++ [' ', '=']], varDef := .defining } :=
      defining_good (push_run g1 hs [] false (by simp)).1 _ (by simp)
    have ew : Fmt.write (s.toList ++ [' ', '=']) { f1 with varDef := .defining } =
        .ok { f1 with texts := f1.texts ++ [s.toList ++ [' ', '=']], varDef := .defining } := by
      unfold Fmt.write
      simp only [g2.line, ok_bind]
      rw [if_neg (by simp)]; rfl
    obtain ⟨f3, e3, g3, k3, em3⟩ := defItems_run es hne hok hsh _ g2 rfl
    have g3' : Good { f3 with varDef := .none } := ⟨g3.level, g3.blank, g3.words, by simp⟩
    obtain ⟨f4, e4, g4, k4, m4, t4, em4⟩ := flush_run g3' rfl
    refine ⟨f4, ?_, g4, ?_, ?_, ?_⟩
    · simp only [Node.expect, Node.type, if_true, ok_bind, Node.lit, Lit.asStr, e1, ew, ne_eq, not_true_eq_false, if_false, e3, e4]
    · exact ⟨k4.1.trans (k3.1.trans k1.1), k4.2.trans (k3.2.trans k1.2)⟩
    · cases hm : f.varDef with
      | none => exact Or.inl m4
      | lastNode => exact Or.inr ⟨rfl, m4⟩
      | defining => exact absurd hm hd
    · have em4' : Emit f3 [.brk] f4 := by
        obtain ⟨cs, ec, lc⟩ := em4
        have hb4 : f4.before = .newline := by simp [Fmt.before, t4]
        have l2 : Layout f4.before [.brk] [] f4.before := by rw [hb4]; exact .brk _ _ _ (.nil _)
        exact ⟨cs ++ [], by rw [List.append_nil]; exact ec, lc.append l2⟩
      have := (em1.append em3).append em4'
      cases hm : f.varDef with
      | none => rw [hm] at this; exact this
      | lastNode => rw [hm] at this; exact this
      | defining => exact absurd hm hd
  | .sexp fs, h => (write_run (text := '(' :: (formTexts fs ++ [')'])) (by simp) _ _).congr fun f => by
      have := lispText_node (.list fs)
      simp only [Form.node, Form.text, branch] at this
      simp only [Ev.node, branch, fmtEvent, this, ok_bind]
  | .seq es, h => by
    simp only [Ev.ok] at h
    have h1 := Run.block (items_run es h.1) (text := ['[']) (by simp) [(.eventSeqOpen, ['['])]
    have h2 := Run.flushed (Run.bind h1 (write_run (text := [']']) (by simp) [(.eventSeqClose, [']'])] true) (starts_t ..))
    rw [Bool.and_true] at h2
    refine h2.congr fun f => ?_
    simp only [Ev.node, branch, fmtEvent, bind_assoc]
  | .cram es d, h => by
    simp only [Ev.ok] at h
    have h1 := Run.bind (write_run (text := ['{']) (by simp) [(.cramOpen, ['{'])] true) (items_run es h.2.1) (starts_t ..)
    have h2 := Run.bind h1 (cramEnd_run d true) (starts_t ..)
    rw [Bool.and_true, Bool.true_and] at h2
    refine h2.congr fun f => ?_
    have hl : ¬ (durNodes d).length > 1 := by unfold durNodes; split <;> simp
    simp only [Ev.node, branch, fmtEvent, hl, if_false, bind_assoc, ne_eq, not_true_eq_false]
  | .voice n es, h => by
    simp only [Ev.ok] at h
    refine (Run.block (items_run es h.2.1) (text := 'V' :: (natDigits n ++ [':'])) (by simp) [(.voiceMarker n, _)]).congr fun f => ?_
    simp only [Ev.node, branch, atom, fmtEvent, Node.expect, Node.type, if_true, ok_bind, Node.lit, Lit.asInt, intDigits_nat, ne_eq, not_true_eq_false, if_false]
  | .voiceEnd, _ => write_run (by simp) _ _
  | .group vs, h => by
    simp only [Ev.ok] at h
    exact (items_run vs h.2.1).flushed
  | .rep e n, h => by
    simp only [Ev.ok] at h
    have h1 := Run.bind (Ev.run e h.1) (write_run (text := '*' :: natDigits n) (by simp) [(.repeat n, '*' :: natDigits n)] true) (Ev.items_starts e h.1)
    rw [Bool.and_true] at h1
    refine h1.congr fun f => ?_
    simp only [Ev.node, branch, atom, fmtEvent, Node.expect, Node.type, if_true, ok_bind, Node.lit, Lit.asInt, intDigits_nat]
  | .onReps e rs, h => by
    simp only [Ev.ok] at h
    have h1 := Run.bind (Ev.run e h.1) (write_run (text := rangesText rs) (by simp [rangesText]) [(rangesTok rs, rangesText rs)] true) (Ev.items_starts e h.1)
    rw [Bool.and_true] at h1
    refine h1.congr fun f => ?_
    have ht : (rangesNodes rs).type = .repetitions := rfl
    simp only [Ev.node, branch, fmtEvent, Node.expect, ht, if_true, ok_bind, rangeTexts_node, rangesText]
theorem items_run : ∀ (es : List Ev), allOk es → Run (allOneLine es) (fmtEvents (nodes es)) (items es)
  | [], _ => Run.nothing _
  | e :: es, h => by
    simp only [allOk] at h
    exact Run.bind (Ev.run e h.1) (items_run es h.2) (Ev.items_starts e h.1)
theorem chordItems_run : ∀ (es : List Ev), allOk es → Run (allOneLine es) (fmtChord (nodes es)) (chordItems es)
  | [], _ => Run.nothing _
  | e :: es, h => by
    simp only [allOk] at h
    have h2 := chordItems_run es h.2
    have h1 : Run (allOneLine es) (fun f => (if isNoteNode e.node && (nodes es).any isNoteNode then f.write ['/'] else .ok f) >>= fmtChord (nodes es))
        ((if e.isNR && es.any Ev.isNR then [one ['/'] .separator] else []) ++ chordItems es) := by
      rw [isNR_node, any_isNR]
      by_cases hc : (e.isNR && es.any Ev.isNR) = true
      · simp only [hc, if_true]
        have := Run.bind (write_run (text := ['/']) (by simp) [(.separator, ['/'])] true) h2 (starts_t ..)
        rw [Bool.true_and] at this
        exact this
      · simp only [hc]
        exact h2
    exact Run.bind (Ev.run e h.1) h1 (Ev.items_starts e h.1)
theorem defItems_run : ∀ (es : List Ev), es ≠ [] → allOk es → shape .defn es → ∀ f, Good f → f.varDef = .defining →
    ∃ f', fmtDefinition (nodes es) f = .ok f' ∧ Good f' ∧ Keeps f f' ∧ Emit f (defItems es) f'
  | [], h, _, _ => absurd rfl h
  | [e], _, h, _ => fun f hf hm => by
    simp only [allOk] at h
    have ht : f.texts ≠ [] := hf.mode (by simp [hm])
    obtain ⟨f1, e1, g1, k1, _, em1⟩ := Ev.run e h.1 { f with varDef := .lastNode } (defining_good hf _ ht) (by simp)
    exact ⟨f1, by simpa only [nodes, fmtDefinition] using e1, g1, k1, em1⟩
  | e :: e' :: es, _, h, hs => fun f hf hm => by
    have h2 := defItems_run (e' :: es) (by simp)
    simp only [allOk] at h h2
    have hs2 : shape .defn (e' :: es) := hs.2.2.2.2
    have ho : e.oneLine = true := hs.2.2.2.1 rfl (by simp)
    obtain ⟨f1, e1, g1, k1, m1, em1⟩ := Ev.run e h.1 f hf (fun _ => ho)
    have hm1 : f1.varDef = .defining := by
      rcases m1 with m1 | ⟨m1, _⟩
      · exact m1.trans hm
      · rw [hm] at m1; simp at m1
    obtain ⟨f2, e2, g2, k2, em2⟩ := h2 h.2 hs2 f1 g1 hm1
    refine ⟨f2, ?_, g2, k1.trans k2, ?_⟩
    · simp only [nodes, fmtDefinition, e1, ok_bind] at e2 ⊢
      exact e2
    · rw [hm] at em1
      exact em1.append em2
end

/-! ### Parts -/

theorem partNameTexts_node : ∀ ns : List String, partNameTexts (ns.map nameNode) = .ok (ns.map String.toList)
  | [] => rfl
  | n :: ns => by
    simp only [List.map_cons, partNameTexts, partNameTexts_node ns]
    rfl

theorem declarationText_node (n : String) (ns : List String) (alias : Option String) :
    declarationText (branch .partDeclaration (branch .partNames (nameNode n :: ns.map nameNode) ::
      (match alias with | none => [] | some a => [atom .partAlias (.str a)]))) = .ok (declText n ns alias) := by
  have := partNameTexts_node (n :: ns)
  simp only [List.map_cons] at this
  cases alias with
  | none =>
    simp [declarationText, branch, Node.expect, Node.type, Node.children, this, ok_bind, declText]
    rfl
  | some a =>
    simp [declarationText, branch, atom, Node.expect, Node.type, Node.children, this, ok_bind, declText, Node.lit, Lit.asStr]
    rfl

theorem part_run {p : Tree.Part} (h : p.ok) {f : Fmt} (hf : Good f) (hm : f.varDef = .none) :
    ∃ f', fmtPart p.node f = .ok f' ∧ Good f' ∧ f'.varDef = .none ∧ Emit f p.items f' := by
  have key : ∀ {b : Bool} {g : Fmt → Except Err Fmt} {is : List Item}, Run b g is → g f = fmtPart p.node f → is = p.items →
      ∃ f', fmtPart p.node f = .ok f' ∧ Good f' ∧ f'.varDef = .none ∧ Emit f p.items f' := by
    intro b g is hr e1 e2
    obtain ⟨f1, e, g1, _, m1, em1⟩ := hr f hf (by simp [hm])
    refine ⟨f1, by rw [← e1, e], g1, ?_, ?_⟩
    · rcases m1 with m1 | ⟨_, m1⟩
      · exact m1.trans hm
      · exact m1
    · rw [hm, e2] at em1; exact em1
  cases p with
  | implicit es =>
    refine key (items_run es h.2.1) ?_ rfl
    simp [Part.node, branch, fmtPart, Node.type, Node.children, Node.expect, ok_bind]
  | declared n ns alias es =>
    refine key (Run.block (items_run es h.2.2.2.1) (text := declText n ns alias) (by cases alias <;> simp [declText]) (declKinds n ns alias)) ?_ rfl
    cases alias with
    | none =>
      have := declarationText_node n ns none
      simp only [branch] at this
      simp [Part.node, branch, fmtPart, Node.type, Node.children, Node.expect, this, ok_bind]
    | some a =>
      have := declarationText_node n ns (some a)
      simp only [branch] at this
      simp [Part.node, branch, fmtPart, Node.type, Node.children, Node.expect, this, ok_bind]

theorem parts_run : ∀ (ps : List Tree.Part), (∀ p ∈ ps, p.ok) → ∀ f, Good f → f.varDef = .none → f.texts = [] →
    ∃ f', fmtParts (ps.map Part.node) f = .ok f' ∧ f'.texts = [] ∧ Emit f (partsItems ps) f'
  | [], _, f, hf, hm, ht => ⟨f, rfl, ht, Emit.nil rfl rfl⟩
  | p :: ps, h, f, hf, hm, ht => by
    obtain ⟨f1, e1, g1, m1, em1⟩ := part_run (h p (List.mem_cons_self ..)) hf hm
    obtain ⟨f2, e2, g2, _, m2, t2, em2⟩ := flush_run g1 m1
    obtain ⟨f3, e3, g3, m3, t3, em3⟩ : ∃ f3, (if (ps.map Part.node).isEmpty then .ok f2 else f2.emptyLine) = .ok f3 ∧ Good f3 ∧ f3.varDef = .none ∧ f3.texts = [] ∧
        Emit f2 [] f3 := by
      cases ps with
      | nil => exact ⟨f2, rfl, g2, m2, t2, Emit.nil rfl rfl⟩
      | cons q ps =>
        have ef : f2.flush = .ok f2 := by unfold Fmt.flush; rw [if_neg (by simp [t2])]
        refine ⟨{ f2 with out := f2.out ++ ['\n'] }, ?_, ⟨g2.level, g2.blank, g2.words, g2.mode⟩, m2, t2, ['\n'], ?_, ?_⟩
        · simp only [List.map_cons, List.isEmpty_cons, Bool.false_eq_true, if_false]
          unfold Fmt.emptyLine
          rw [if_pos m2, ef]; rfl
        · simp [Fmt.shown, Fmt.pending, t2]
        · have hb : f2.before = .newline := by simp [Fmt.before, t2]
          have hb' : Fmt.before { f2 with out := f2.out ++ ['\n'] } = .newline := by simp [Fmt.before, t2]
          rw [hb, hb']
          exact .blank _ _ _ _ _ (by decide) (by simp) (.nil _)
    obtain ⟨f4, e4, t4, em4⟩ := parts_run ps (fun q hq => h q (List.mem_cons_of_mem _ hq)) f3 g3 m3 t3
    refine ⟨f4, ?_, t4, ?_⟩
    · simp only [List.map_cons, fmtParts, e1, ok_bind, e2, e3, e4]
    · have := em1.append (em2.append (em3.append em4))
      simpa [partsItems] using this

/-- The formatter's output for a well-formed program. -/
theorem format_run {ps : List Tree.Part} (h : ∀ p ∈ ps, p.ok) (width : Int) {indent : List Char} (hi : ∀ c ∈ indent, isBlank c = true) :
    ∃ out, format width indent (root ps) = .ok out ∧ Layout .newline (partsItems ps) out .newline := by
  obtain ⟨f, e, t, cs, ec, l⟩ := parts_run ps h (newFormatter width indent) ⟨by simp [newFormatter], hi, by simp [newFormatter], by simp [newFormatter]⟩ rfl rfl
  have hb : f.before = .newline := by simp [Fmt.before, t]
  have ho : f.shown = f.out := by simp [Fmt.shown, Fmt.pending, t]
  rw [hb] at l
  rw [ho] at ec
  refine ⟨f.out, ?_, ?_⟩
  · simp only [format, root, branch, Node.children, e, ok_bind]; rfl
  · rw [ec]; exact l

end Syn
end Alda
