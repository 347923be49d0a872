import Verif.Lemmas.FormatNumbers
import Verif.Lemmas.ParseUpdates
import Verif.Lemmas.Parse
import Verif.Spec.Format
/-!
What the grammar makes of the scanner's tokens is a well-formed tree: forms, durations, notes and chords.
-/
namespace Alda
namespace Syn
open Spec Tree

/-- Some token has a newline in its text. -/
def Broken (ts : List Token) : Prop := ∃ t ∈ ts, '\n' ∈ t.text

theorem Broken.left {ts us : List Token} (h : Broken ts) : Broken (ts ++ us) := by
  obtain ⟨t, h1, h2⟩ := h; exact ⟨t, List.mem_append_left _ h1, h2⟩
theorem Broken.right {ts us : List Token} (h : Broken us) : Broken (ts ++ us) := by
  obtain ⟨t, h1, h2⟩ := h; exact ⟨t, List.mem_append_right _ h1, h2⟩
theorem Broken.cons {t : Token} {us : List Token} (h : Broken us) : Broken (t :: us) := Broken.right (ts := [t]) h

theorem noteLengthText_decimal {text : List Char} {q : Rat} {k : Nat} (h : NoteLengthText text q k) : IsDecimal q ∧ 0 ≤ q := by
  have nn : ∀ n : Nat, (0 : Rat) ≤ (n : Rat) := fun n => by exact_mod_cast Nat.zero_le n
  cases h with
  | whole w k _ _ => exact ⟨by rw [← decimalValue_nil]; exact isDecimal_value w [], nn _⟩
  | decimal w f k _ _ _ _ =>
    refine ⟨isDecimal_value w f, ?_⟩
    have h1 := nn (decimal w)
    have h2 := nn (decimal f)
    have h3 : (0 : Rat) < 10 ^ f.length := Rat.pow_pos (by decide)
    have h4 : (0 : Rat) ≤ (decimal f : Rat) / 10 ^ f.length := by
      rw [Rat.div_def]
      exact Rat.mul_nonneg h2 (Rat.le_of_lt (Rat.inv_pos.2 h3))
    grind

theorem number_decimal {q : Rat} {text : List Char} (h : Denotes (.number q) text) : IsDecimal q := by
  cases h with
  | number _ _ h => exact (noteLengthText_decimal h).1
  | minus w _ => exact isDecimal_neg (isDecimal_value w [])
  | minusFraction w f _ _ _ => exact isDecimal_neg (isDecimal_value w f)

theorem isSymbol_text {text : List Char} (h : Denotes .symbol text) : isSymbol (String.ofList text) := by
  cases h with
  | symbol c cs h1 h2 h3 => exact ⟨c, cs, by simp, h1, h2, h3⟩

theorem isName_text {text : List Char} (h : Denotes .name text) : isName (String.ofList text) := by
  cases h with
  | name a b cs h1 h2 h3 => exact ⟨a, b, cs, by simp, h1, h2, h3⟩

theorem clamp_nat (n : Nat) : ∃ k : Nat, clamp n = k ∧ k ≤ maxInt := by
  unfold clamp maxInt
  split
  · exact ⟨n, rfl, by assumption⟩
  · exact ⟨2147483647, rfl, Nat.le_refl _⟩

/-! ### Forms -/

def FormTree (ts : List Token) (n : Node) : Prop :=
  Lits ts → ∃ f : Form, n = f.node ∧ f.ok ∧ f.isQuoted = false ∧ (f.oneLine = false → Broken ts) ∧ (n.type = .lispList → ∃ fs, f = .list fs)

def FormTrees (ts : List Token) (ns : List Node) : Prop :=
  Lits ts → ∃ fs : List Form, ns = formNodes fs ∧ formsOk fs ∧ (formsOneLine fs = false → Broken ts)

mutual
theorem formG_tree {ts : List Token} {n : Node} (h : FormG ts n) : FormTree ts n := by
  cases h with
  | symbol t ht =>
    intro hl
    have hd := hl.head (by rw [ht]; simp)
    rw [ht] at hd
    exact ⟨.sym (String.ofList t.text), rfl, isSymbol_text hd, rfl, by simp [Form.oneLine], by simp [atom, Node.type]⟩
  | number t q ht =>
    intro hl
    have hd := hl.head (by rw [ht]; simp)
    rw [ht] at hd
    exact ⟨.num q, rfl, number_decimal hd, rfl, by simp [Form.oneLine], by simp [atom, Node.type]⟩
  | string t s ht =>
    intro hl
    have hd := hl.head (by rw [ht]; simp)
    rw [ht] at hd
    refine ⟨.str s, rfl, ?_, rfl, ?_, by simp [atom, Node.type]⟩
    · generalize t.text = tx at hd
      cases hd; assumption
    · intro ho
      refine ⟨t, by simp, ?_⟩
      simp [Form.oneLine] at ho
      generalize t.text = tx at hd
      cases hd
      simp [ho]
  | list l r ts ns hl hr hf =>
    intro h
    rw [List.cons_append] at h
    obtain ⟨fs, h1, h2, h3⟩ := formsG_tree hf h.tail.left
    refine ⟨.list fs, by rw [h1]; rfl, h2, rfl, fun ho => ?_, fun _ => ⟨fs, rfl⟩⟩
    simp only [Form.oneLine] at ho
    rw [List.cons_append]
    exact (h3 ho).left.cons
theorem formsG_tree {ts : List Token} {ns : List Node} (h : FormsG ts ns) : FormTrees ts ns := by
  cases h with
  | nil => exact fun _ => ⟨[], rfl, trivial, by simp [formsOneLine]⟩
  | cons ts us n ns h1 h2 =>
    intro hl
    obtain ⟨f, a1, a2, _, a3, _⟩ := formG_tree h1 hl.left
    obtain ⟨fs, b1, b2, b3⟩ := formsG_tree h2 hl.right
    refine ⟨f :: fs, by rw [a1, b1]; rfl, ⟨a2, b2⟩, fun ho => ?_⟩
    simp only [formsOneLine, Bool.and_eq_false_iff] at ho
    exact ho.elim (fun h => (a3 h).left) (fun h => (b3 h).right)
  | quoted q ts us n ns hq h1 h2 =>
    intro hl
    rw [List.cons_append] at hl
    obtain ⟨f, a1, a2, a4, a3, _⟩ := formG_tree h1 hl.tail.left
    obtain ⟨fs, b1, b2, b3⟩ := formsG_tree h2 hl.tail.right
    refine ⟨.quoted f :: fs, by rw [a1, b1]; rfl, ⟨⟨a2, a4⟩, b2⟩, fun ho => ?_⟩
    simp only [formsOneLine, Form.oneLine, Bool.and_eq_false_iff] at ho
    rw [List.cons_append]
    exact ho.elim (fun h => (a3 h).left.cons) (fun h => (b3 h).right.cons)
end

theorem sexpG_tree {ts : List Token} {n : Node} (h : SexpG ts n) (hl : Lits ts) :
    ∃ fs : List Form, n = (Ev.sexp fs).node ∧ formsOk fs ∧ (formsOneLine fs = false → Broken ts) := by
  obtain ⟨f, h1, h2, _, h3, h4⟩ := formG_tree h.1 hl
  obtain ⟨fs, rfl⟩ := h4 h.2
  exact ⟨fs, h1, h2, h3⟩

/-! ### Durations -/

theorem lengthG_tree {t : Token} {n : Node} (h : LengthG t n) (hd : t.tok ≠ .eof → Denotes t.tok t.text) :
    ∃ c : Comp, n = c.node ∧ c.ok ∧ c ≠ .bar := by
  cases h with
  | plain d k ht hk =>
    have hd := hd (by rw [ht]; simp)
    rw [ht] at hd
    cases hd with
    | noteLength _ _ m _ h1 h2 h3 => exact ⟨.len d 0, rfl, ⟨(noteLengthText_decimal h1).1, (noteLengthText_decimal h1).2, Nat.zero_le _⟩, by simp⟩
  | dotted d k ht hk =>
    have hd := hd (by rw [ht]; simp)
    rw [ht] at hd
    cases hd with
    | noteLength _ _ m _ h1 h2 h3 =>
      refine ⟨.len d k.toNat, ?_, ⟨(noteLengthText_decimal h1).1, (noteLengthText_decimal h1).2, by unfold maxInt; omega⟩, by simp⟩
      have : ((k.toNat : Nat) : Int) = k := by omega
      simp only [Comp.node, this]
      rw [if_pos (by omega)]
  | ms q ht =>
    have hd := hd (by rw [ht]; simp)
    rw [ht] at hd
    generalize t.text = tx at hd
    cases hd with
    | noteLengthMs text _ h1 => exact ⟨.ms q, rfl, noteLengthText_decimal h1, by simp⟩
  | seconds q ht =>
    have hd := hd (by rw [ht]; simp)
    rw [ht] at hd
    generalize t.text = tx at hd
    cases hd with
    | noteLengthSeconds text _ h1 => exact ⟨.sec q, rfl, noteLengthText_decimal h1, by simp⟩

theorem bars_tree (k : Nat) : List.replicate k (atom .barline .none) = (List.replicate k Comp.bar).map Comp.node := by
  simp [List.map_replicate, Comp.node]

theorem lengthsG_tree {ts : List Token} {ns : List Node} (h : LengthsG ts ns) (hl : Lits ts) :
    ∃ cs : List Comp, ns = cs.map Comp.node ∧ ∀ c ∈ cs, c.ok := by
  induction h with
  | done bars hb =>
    refine ⟨_, bars_tree _, fun c hc => ?_⟩
    rw [List.eq_of_mem_replicate hc]
    trivial
  | tied bars bars' ties tie t n ts ns h1 h2 h3 h4 h5 h6 ih =>
    obtain ⟨c, c1, c2, _⟩ := lengthG_tree h5 (hl.right.head)
    obtain ⟨cs, d1, d2⟩ := ih hl.right.tail
    refine ⟨List.replicate (bars.length + bars'.length) Comp.bar ++ c :: cs, by rw [bars_tree, c1, d1]; simp, fun x hx => ?_⟩
    rcases List.mem_append.1 hx with hx | hx
    · rw [List.eq_of_mem_replicate hx]; trivial
    · rcases List.mem_cons.1 hx with rfl | hx
      · exact c2
      · exact d2 x hx

theorem durationG_tree {ts : List Token} {ns : List Node} (h : DurationG ts ns) (hl : Lits ts) :
    ∃ cs : List Comp, ns = durNodes cs ∧ durOk cs := by
  cases h with
  | none => exact ⟨[], rfl, by simp, by simp⟩
  | some t n ts ns h1 h2 =>
    obtain ⟨c, c1, c2, c3⟩ := lengthG_tree h1 hl.head
    obtain ⟨cs, d1, d2⟩ := lengthsG_tree h2 hl.tail
    refine ⟨c :: cs, by rw [c1, d1]; rfl, ?_, by simpa using c3⟩
    intro x hx
    rcases List.mem_cons.1 hx with rfl | hx
    · exact c2
    · exact d2 x hx

/-! ### Notes -/

theorem accidentalsG_tree {ts : List Token} {ns : List Node} (h : AccidentalsG ts ns) : ∃ as : List Accidental, ns = as.map accNode := by
  induction h with
  | nil => exact ⟨[], rfl⟩
  | flat _ _ _ _ _ ih => obtain ⟨as, rfl⟩ := ih; exact ⟨.flat :: as, rfl⟩
  | natural _ _ _ _ _ ih => obtain ⟨as, rfl⟩ := ih; exact ⟨.natural :: as, rfl⟩
  | sharp _ _ _ _ _ ih => obtain ⟨as, rfl⟩ := ih; exact ⟨.sharp :: as, rfl⟩

theorem comp_barline (c : Comp) : c.node.type = .barline ↔ c = .bar := by
  cases c <;> simp [Comp.node, atom, branch, Node.type]

/-- A note or rest. -/
theorem noteG_tree {ts : List Token} {n : Node} (h : NoteG ts n) (hl : Lits ts) :
    ∃ e : Ev, n = e.node ∧ e.isNR = true ∧ (Clean n → e.ok) := by
  cases h with
  | note l c as ds ss an dn sn ht ha hd hs =>
    have hc := hl.head (by rw [ht]; simp)
    rw [ht] at hc
    obtain ⟨accs, rfl⟩ := accidentalsG_tree ha
    obtain ⟨cs, rfl, hcs⟩ := durationG_tree hd (by
      have := hl
      rw [List.cons_append, List.cons_append] at this
      exact this.tail.left.right)
    have hm : c ∈ ['a', 'b', 'c', 'd', 'e', 'f', 'g'] := by
      generalize l.text = tx at hc
      cases hc; assumption
    cases hs with
    | none =>
      refine ⟨.note c accs cs false, ?_, rfl, fun _ => ⟨hm, hcs, by simp⟩⟩
      cases accs <;> simp [Ev.node]
    | some t ht' =>
      refine ⟨.note c accs cs true, ?_, rfl, fun hcl => ⟨hm, hcs, fun _ hb => ?_⟩⟩
      · cases accs <;> simp [Ev.node]
      · simp only [branch, Clean] at hcl
        have h1 := hcl.1
        simp only [PlainSlur] at h1
        have hne : cs.isEmpty = false := by
          cases cs with
          | nil => simp at hb
          | cons => rfl
        have h2 := h1 (by simp [atom, Node.type, List.getLast?_append, List.getLast?_cons]) (branch .duration (cs.map Comp.node)) (by simp [durNodes, hne, branch]) rfl
        simp only [branch, Node.children, List.getLast?_map, hb] at h2
        simp [Comp.node, atom, Node.type] at h2
  | rest l ds dn ht hd =>
    obtain ⟨cs, rfl, hcs⟩ := durationG_tree hd hl.tail
    exact ⟨.rest cs, rfl, rfl, fun _ => hcs⟩

theorem octaveG_tree {ts : List Token} {n : Node} (h : OctaveG ts n) (hl : Lits ts) :
    ∃ e : Ev, n = e.node ∧ e.ok ∧ (e = .up ∨ e = .down ∨ ∃ k, e = .oct k) := by
  cases h with
  | up t ht => exact ⟨.up, rfl, trivial, .inl rfl⟩
  | down t ht => exact ⟨.down, rfl, trivial, .inr (.inl rfl)⟩
  | set t n ht =>
    have hc := hl.head (by rw [ht]; simp)
    rw [ht] at hc
    generalize t.text = tx at hc
    cases hc with
    | octaveSet ds h =>
      obtain ⟨k, k1, k2⟩ := clamp_nat (decimal ds)
      exact ⟨.oct k, by rw [k1]; rfl, k2, .inr (.inr ⟨k, rfl⟩)⟩

/-! ### Chords -/

theorem nodes_app (es fs : List Ev) : nodes (es ++ fs) = nodes es ++ nodes fs := by
  induction es with
  | nil => rfl
  | cons e es ih => simp [nodes, ih]

theorem allOk_app {es fs : List Ev} (h1 : allOk es) (h2 : allOk fs) : allOk (es ++ fs) := by
  induction es with
  | nil => exact h2
  | cons e es ih => exact ⟨h1.1, ih h1.2⟩

theorem allOneLine_app (es fs : List Ev) : allOneLine (es ++ fs) = (allOneLine es && allOneLine fs) := by
  induction es with
  | nil => simp [allOneLine]
  | cons e es ih => simp [allOneLine, ih, Bool.and_assoc]

theorem isNR_oneLine {e : Ev} (h : e.isNR = true) : e.oneLine = true := by
  cases e <;> simp [Ev.isNR] at h <;> rfl

theorem isNR_inChord {e : Ev} (h : e.isNR = true) : e.inChord = true := by
  cases e <;> simp [Ev.isNR] at h <;> rfl

theorem allClean_append {ns ms : List Node} : AllClean (ns ++ ms) ↔ AllClean ns ∧ AllClean ms := by
  induction ns with
  | nil => simp [AllClean]
  | cons n ns ih => simp [AllClean, ih, and_assoc]

theorem betweenG_tree {ts : List Token} {ns : List Node} (h : BetweenG ts ns) (hl : Lits ts) :
    ∃ es : List Ev, ns = nodes es ∧ allOk es ∧ (∀ e ∈ es, e.inChord = true) ∧ (allOneLine es = false → Broken ts) := by
  induction h with
  | nil => exact ⟨[], rfl, trivial, by simp, by simp [allOneLine]⟩
  | octave ts us n ns h1 h2 ih =>
    obtain ⟨e, a1, a2, a3⟩ := octaveG_tree h1 hl.left
    obtain ⟨es, b1, b2, b3, b4⟩ := ih hl.right
    have hi : e.inChord = true ∧ e.oneLine = true := by rcases a3 with rfl | rfl | ⟨k, rfl⟩ <;> exact ⟨rfl, rfl⟩
    refine ⟨e :: es, by rw [a1, b1]; rfl, ⟨a2, b2⟩, ?_, ?_⟩
    · intro x hx
      rcases List.mem_cons.1 hx with rfl | hx
      · exact hi.1
      · exact b3 x hx
    · simp only [allOneLine, hi.2, Bool.true_and]
      exact fun h => (b4 h).right
  | sexp ts us n ns h1 h2 ih =>
    obtain ⟨fs, a1, a2, a3⟩ := sexpG_tree h1 hl.left
    obtain ⟨es, b1, b2, b3, b4⟩ := ih hl.right
    refine ⟨.sexp fs :: es, by rw [a1, b1]; rfl, ⟨a2, b2⟩, ?_, ?_⟩
    · intro x hx
      rcases List.mem_cons.1 hx with rfl | hx
      · rfl
      · exact b3 x hx
    · simp only [allOneLine, Ev.oneLine, Bool.and_eq_false_iff]
      exact fun h => h.elim (fun h => (a3 h).left) (fun h => (b4 h).right)

theorem chordG_tree {ts : List Token} {ns : List Node} (h : ChordG ts ns) (hl : Lits ts) :
    ∃ es : List Ev, ns = nodes es ∧ (AllClean ns → allOk es) ∧ chordShape es ∧ (allOneLine es = false → Broken ts) := by
  have glue : ∀ (e : Ev) (bs cs es : List Ev), e.isNR = true → (∀ x ∈ bs, x.inChord = true) → (∀ x ∈ cs, x.inChord = true) →
      es ≠ [] → (∀ x ∈ es, x.inChord = true) → (∀ x ∈ es.getLast?, x.isNR = true) → chordShape (e :: (bs ++ (cs ++ es))) := by
    intro e bs cs es h1 h2 h3 h4 h5 h6
    refine ⟨?_, ?_, by simpa using h1, ?_⟩
    · have : 0 < es.length := List.length_pos_iff.2 h4
      simp; omega
    · intro x hx
      simp only [List.mem_cons, List.mem_append] at hx
      rcases hx with rfl | hx | hx | hx
      · exact isNR_inChord h1
      · exact h2 x hx
      · exact h3 x hx
      · exact h5 x hx
    · intro x hx
      apply h6
      obtain ⟨l, hl⟩ : ∃ l, es.getLast? = some l := by
        cases hg : es.getLast? with
        | none => simp at hg; exact absurd hg h4
        | some l => exact ⟨l, rfl⟩
      rw [hl]
      have : (e :: (bs ++ (cs ++ es))).getLast? = some l := by
        rw [← List.cons_append, ← List.append_assoc, List.getLast?_append, hl]; rfl
      rw [this] at hx
      exact hx
  induction h with
  | two ts bs cs us sep n m bn cn h1 h2 h3 h4 h5 =>
    have hl' : Lits (ts ++ bs ++ (sep :: cs) ++ us) := by simpa using hl
    obtain ⟨e, a1, a2, a3⟩ := noteG_tree h1 hl'.left.left.left
    obtain ⟨es, b1, b2, b3, b4⟩ := betweenG_tree h2 hl'.left.left.right
    obtain ⟨fs, c1, c2, c3, c4⟩ := betweenG_tree h4 hl'.left.right.tail
    obtain ⟨g, d1, d2, d3⟩ := noteG_tree h5 hl'.right
    refine ⟨e :: (es ++ (fs ++ [g])), by rw [a1, b1, c1, d1]; simp [nodes, nodes_app], fun hc => ?_,
      glue e es fs [g] a2 b3 c3 (by simp) (by simpa using isNR_inChord d2) (by simpa using d2), ?_⟩
    · simp only [List.cons_append, AllClean, allClean_append] at hc
      exact ⟨a3 hc.1, allOk_app b2 (allOk_app c2 ⟨d3 hc.2.2.1, trivial⟩)⟩
    · simp only [allOneLine, allOneLine_app, isNR_oneLine a2, isNR_oneLine d2, Bool.true_and, Bool.and_true, Bool.and_eq_false_iff]
      rintro (h | h)
      · exact (b4 h).right.left.left
      · exact (c4 h).cons.right.left
  | more ts bs cs us sep n bn cn ns h1 h2 h3 h4 h5 ih =>
    have hl' : Lits (ts ++ bs ++ (sep :: cs) ++ us) := by simpa using hl
    obtain ⟨e, a1, a2, a3⟩ := noteG_tree h1 hl'.left.left.left
    obtain ⟨es, b1, b2, b3, b4⟩ := betweenG_tree h2 hl'.left.left.right
    obtain ⟨fs, c1, c2, c3, c4⟩ := betweenG_tree h4 hl'.left.right.tail
    obtain ⟨gs, d1, d2, d3, d4⟩ := ih hl'.right
    refine ⟨e :: (es ++ (fs ++ gs)), by rw [a1, b1, c1, d1]; simp [nodes, nodes_app], fun hc => ?_,
      glue e es fs gs a2 b3 c3 (by rintro rfl; simp [chordShape] at d3) d3.2.1 d3.2.2.2, ?_⟩
    · simp only [List.cons_append, AllClean, allClean_append] at hc
      exact ⟨a3 hc.1, allOk_app b2 (allOk_app c2 (d2 hc.2.2))⟩
    · simp only [allOneLine, allOneLine_app, isNR_oneLine a2, Bool.true_and, Bool.and_eq_false_iff]
      rintro (h | h | h)
      · exact (b4 h).right.left.left
      · exact (c4 h).cons.right.left
      · exact (d4 h).right

/-- A note, a rest or a chord. -/
theorem notesG_tree {ts : List Token} {n : Node} (h : NotesG ts n) (hl : Lits ts) :
    ∃ e : Ev, n = e.node ∧ (Clean n → e.ok) ∧ (∀ x, e.allowed x = true) ∧ e.open = false ∧ (∀ k, 0 < k → e.mayRepeat k = true) ∧
      (e.oneLine = false → Broken ts) ∧ e.fit := by
  cases h with
  | single _ h =>
    obtain ⟨e, h1, h2, h3⟩ := noteG_tree h hl
    refine ⟨e, h1, h3, ?_, ?_, ?_, fun ho => by rw [isNR_oneLine h2] at ho; simp at ho, inChord_fit (isNR_inChord h2)⟩
    all_goals cases e <;> simp [Ev.isNR] at h2 <;> simp [Ev.allowed, Ev.open, Ev.mayRepeat]
  | chord ns h =>
    obtain ⟨es, h1, h2, h3, h4⟩ := chordG_tree h hl
    refine ⟨.chord es, by rw [h1]; rfl, fun hc => ⟨h2 ?_, h3⟩, by simp [Ev.allowed], rfl, by simp [Ev.mayRepeat], h4, chordShape_fit h3⟩
    simp only [branch, Clean] at hc
    exact hc.2.2

end Syn
end Alda
