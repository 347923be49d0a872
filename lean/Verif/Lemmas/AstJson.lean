import Verif.Lemmas.Json
import Verif.Lemmas.FormatParts
/-!
The JSON of an AST determines the AST, if the literals have the types that the parser gives them.
-/
namespace Alda
namespace Syn
open Spec

/-- All types of nodes. -/
def nodeTypes : List NodeType :=
  [.atMarker, .barline, .chord, .cram, .denominator, .dots, .duration, .eventSequence, .firstRepetition, .flat, .implicitPart, .lastRepetition, .lispList, .lispNumber,
   .lispQuotedForm, .lispString, .lispSymbol, .marker, .natural, .noteAccidentals, .noteLengthMs, .noteLength, .noteLengthSeconds, .noteLetterAndAccidentals, .noteLetter,
   .note, .octaveDown, .octaveSet, .octaveUp, .onRepetitions, .partAlias, .partDeclaration, .partName, .partNames, .part, .repeat, .repetitionRange, .repetitions, .rest,
   .root, .sharp, .tie, .times, .variableDefinition, .variableName, .variableReference, .voice, .voiceGroupEndMarker, .voiceGroup, .voiceNumber]

theorem nodeType_text (t : NodeType) : nodeTypes.find? (fun u => u.text == t.text) = some t := by
  cases t <;> decide +kernel

theorem nodeType_inj {t u : NodeType} (h : t.text = u.text) : t = u := by
  have h1 := nodeType_text t
  rw [h, nodeType_text u] at h1
  exact (Option.some.inj h1).symm

/-- The type of the literal of a node. -/
inductive LitType where
  | none | str | num | int | chr
deriving DecidableEq

def Lit.type : Lit → LitType
  | .none => .none
  | .str _ => .str
  | .num _ => .num
  | .int _ => .int
  | .chr _ => .chr

def NodeType.litType : NodeType → LitType
  | .lispSymbol => .str
  | .lispString => .str
  | .marker => .str
  | .atMarker => .str
  | .variableReference => .str
  | .variableName => .str
  | .partName => .str
  | .partAlias => .str
  | .lispNumber => .num
  | .denominator => .num
  | .noteLengthMs => .num
  | .noteLengthSeconds => .num
  | .dots => .int
  | .octaveSet => .int
  | .voiceNumber => .int
  | .times => .int
  | .firstRepetition => .int
  | .lastRepetition => .int
  | .noteLetter => .chr
  | _ => .none

mutual
/-- The literals have the types that belong to the nodes. -/
def Node.LitOk : Node → Prop
  | .mk t l cs => l.type = t.litType ∧ Node.LitOks cs
def Node.LitOks : List Node → Prop
  | [] => True
  | n :: ns => n.LitOk ∧ Node.LitOks ns
end

theorem lit_inj {t : NodeType} {l m : Lit} (hl : l.type = t.litType) (hm : m.type = t.litType) (h : l.json t = m.json t) : l = m := by
  cases l <;> cases m <;> simp [Lit.type] at hl hm <;> simp [← hl] at hm <;> simp [Lit.json] at h
  · rfl
  · rw [h]
  · rw [h]
  · rw [intJson_inj h]
  · by_cases ht : t = .noteLetter
    · simp only [ht, if_true, Json.str.injEq] at h
      have := congrArg String.toList h
      simp at this
      rw [this]
    · cases t <;> simp [NodeType.litType] at hl ht

theorem node_fields (t : NodeType) (l : Lit) (cs : List Node) : field "type" (Node.mk t l cs).json = some (.str t.text) ∧
    field "children" (Node.mk t l cs).json = (if cs.isEmpty then none else some (.arr (Node.jsons cs))) ∧
    field "literal" (Node.mk t l cs).json = l.json t := by
  unfold Node.json
  cases hc : cs.isEmpty <;> cases hl : l.json t <;> simp [object_def, set_obj, field_put, field_empty]

mutual
theorem node_inj : ∀ n m : Node, n.LitOk → m.LitOk → n.json = m.json → n = m
  | .mk t l cs, .mk t' l' cs', hn, hm, h => by
    obtain ⟨h1, h2, h3⟩ := node_fields t l cs
    obtain ⟨i1, i2, i3⟩ := node_fields t' l' cs'
    rw [h, i1] at h1
    rw [h, i2] at h2
    rw [h, i3] at h3
    simp only [Option.some.injEq, Json.str.injEq] at h1
    have ht := nodeType_inj h1
    subst ht
    simp only [Node.LitOk] at hn hm
    have hl := lit_inj hm.1 hn.1 h3
    subst hl
    have hcs : Node.jsons cs = Node.jsons cs' := by
      cases cs <;> cases cs' <;> simp at h2
      · rfl
      · exact h2.symm
    rw [nodes_inj cs cs' hn.2 hm.2 hcs]
theorem nodes_inj : ∀ ns ms : List Node, Node.LitOks ns → Node.LitOks ms → Node.jsons ns = Node.jsons ms → ns = ms
  | [], [], _, _, _ => rfl
  | [], _ :: _, _, _, h => by simp [Node.jsons] at h
  | _ :: _, [], _, _, h => by simp [Node.jsons] at h
  | n :: ns, m :: ms, hn, hm, h => by
    simp only [Node.LitOks] at hn hm
    simp only [Node.jsons, List.cons.injEq] at h
    rw [node_inj n m hn.1 hm.1 h.1, nodes_inj ns ms hn.2 hm.2 h.2]
end

theorem litOks_append : ∀ ns ms : List Node, Node.LitOks (ns ++ ms) ↔ Node.LitOks ns ∧ Node.LitOks ms
  | [], _ => by simp [Node.LitOks]
  | n :: ns, ms => by simp only [List.cons_append, Node.LitOks, litOks_append ns ms, and_assoc]

theorem litOks_all : ∀ ns : List Node, (∀ n ∈ ns, n.LitOk) → Node.LitOks ns
  | [], _ => trivial
  | n :: ns, h => ⟨h n (by simp), litOks_all ns fun m hm => h m (by simp [hm])⟩

namespace Tree

mutual
theorem form_litOk : ∀ f : Form, f.node.LitOk
  | .sym _ => by simp [Form.node, atom, Node.LitOk, Node.LitOks, Lit.type, NodeType.litType]
  | .num _ => by simp [Form.node, atom, Node.LitOk, Node.LitOks, Lit.type, NodeType.litType]
  | .str _ => by simp [Form.node, atom, Node.LitOk, Node.LitOks, Lit.type, NodeType.litType]
  | .list fs => by simp [Form.node, branch, Node.LitOk, Lit.type, NodeType.litType, forms_litOk fs]
  | .quoted f => by simp [Form.node, branch, Node.LitOk, Node.LitOks, Lit.type, NodeType.litType, form_litOk f]
theorem forms_litOk : ∀ fs : List Form, Node.LitOks (formNodes fs)
  | [] => trivial
  | f :: fs => ⟨form_litOk f, forms_litOk fs⟩
end

theorem comp_litOk (c : Comp) : c.node.LitOk := by
  cases c with
  | len d dots =>
    simp only [Comp.node]
    split <;> simp [branch, atom, Node.LitOk, Node.LitOks, Lit.type, NodeType.litType]
  | _ => simp [Comp.node, atom, Node.LitOk, Node.LitOks, Lit.type, NodeType.litType]

theorem dur_litOk (d : List Comp) : Node.LitOks (durNodes d) := by
  unfold durNodes
  split
  · trivial
  · refine ⟨⟨rfl, litOks_all _ fun n hn => ?_⟩, trivial⟩
    obtain ⟨c, _, rfl⟩ := List.mem_map.mp hn
    exact comp_litOk c

theorem accs_litOk (as : List Accidental) : Node.LitOks (as.map accNode) := by
  refine litOks_all _ fun n hn => ?_
  obtain ⟨a, _, rfl⟩ := List.mem_map.mp hn
  cases a <;> simp [accNode, atom, Node.LitOk, Node.LitOks, Lit.type, NodeType.litType]

theorem ranges_litOk (rs : List (Nat × Nat)) : (rangesNodes rs).LitOk := by
  unfold rangesNodes rangesNode
  refine ⟨rfl, litOks_all _ fun n hn => ?_⟩
  obtain ⟨r, _, rfl⟩ := List.mem_map.mp hn
  exact ⟨rfl, ⟨rfl, trivial⟩, ⟨rfl, trivial⟩, trivial⟩

mutual
theorem ev_litOk : ∀ e : Ev, e.node.LitOk
  | .note c as d s => by
    refine ⟨rfl, ⟨rfl, ⟨rfl, trivial⟩, ?_⟩, (litOks_append _ _).mpr ⟨dur_litOk d, ?_⟩⟩
    · split
      · trivial
      · exact ⟨⟨rfl, accs_litOk as⟩, trivial⟩
    · split
      · exact ⟨⟨rfl, trivial⟩, trivial⟩
      · trivial
  | .rest d => ⟨rfl, dur_litOk d⟩
  | .chord es => ⟨rfl, evs_litOk es⟩
  | .up => ⟨rfl, trivial⟩
  | .down => ⟨rfl, trivial⟩
  | .oct _ => ⟨rfl, trivial⟩
  | .bar => ⟨rfl, trivial⟩
  | .marker _ => ⟨rfl, trivial⟩
  | .at _ => ⟨rfl, trivial⟩
  | .ref _ => ⟨rfl, trivial⟩
  | .defn _ es => ⟨rfl, ⟨rfl, trivial⟩, ⟨rfl, evs_litOk es⟩, trivial⟩
  | .sexp fs => ⟨rfl, forms_litOk fs⟩
  | .seq es => ⟨rfl, evs_litOk es⟩
  | .cram es d => ⟨rfl, ⟨rfl, evs_litOk es⟩, dur_litOk d⟩
  | .voice _ es => ⟨rfl, ⟨rfl, trivial⟩, ⟨rfl, evs_litOk es⟩, trivial⟩
  | .voiceEnd => ⟨rfl, trivial⟩
  | .group vs => ⟨rfl, evs_litOk vs⟩
  | .rep e _ => ⟨rfl, ev_litOk e, ⟨rfl, trivial⟩, trivial⟩
  | .onReps e rs => ⟨rfl, ev_litOk e, ranges_litOk rs, trivial⟩
theorem evs_litOk : ∀ es : List Ev, Node.LitOks (nodes es)
  | [] => trivial
  | e :: es => ⟨ev_litOk e, evs_litOk es⟩
end

theorem part_litOk (p : Part) : p.node.LitOk := by
  cases p with
  | implicit es => exact ⟨rfl, ⟨rfl, evs_litOk es⟩, trivial⟩
  | declared n ns a es =>
    refine ⟨rfl, ⟨rfl, ⟨rfl, ⟨rfl, trivial⟩, litOks_all _ fun m hm => ?_⟩, ?_⟩, ⟨rfl, evs_litOk es⟩, trivial⟩
    · obtain ⟨c, _, rfl⟩ := List.mem_map.mp hm
      exact ⟨rfl, trivial⟩
    · cases a with
      | none => trivial
      | some _ => exact ⟨⟨rfl, trivial⟩, trivial⟩

theorem root_litOk (ps : List Part) : (root ps).LitOk := by
  refine ⟨rfl, litOks_all _ fun n hn => ?_⟩
  obtain ⟨p, _, rfl⟩ := List.mem_map.mp hn
  exact part_litOk p

end Tree

/-- The literals of a parsed program have the right types. -/
theorem parse_litOk {input : List Char} {ast : Node} (h : parse input = .ok ast) : ast.LitOk := by
  obtain ⟨ps, rfl, _, _⟩ := parse_tree h
  exact Tree.root_litOk ps

end Syn
end Alda
