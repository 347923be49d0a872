import Verif.Spec.Json
import Verif.Lemmas.Spelled
import Verif.Parse.AstJson
/-!
What can be read from JSON.
-/
namespace Alda
open Spec

theorem lookup_ite (k a : String) (w : Json) (fs : List (String × Json)) : ((a, w) :: fs).lookup k = if k = a then some w else fs.lookup k := by
  rw [List.lookup_cons]
  by_cases h : k = a
  · simp [h]
  · have : (k == a) = false := by simpa using h
    simp [h, this]

theorem lookup_put (k k' : String) (v : Json) (fs : List (String × Json)) :
    (Json.put k v fs).lookup k' = if k' = k then some v else fs.lookup k' := by
  induction fs with
  | nil => rw [Json.put, lookup_ite]
  | cons f fs ih =>
    obtain ⟨a, w⟩ := f
    rw [Json.put]
    split
    · simp only [lookup_ite]; grind
    · split
      · simp only [lookup_ite]
      · simp only [lookup_ite, ih]; grind

theorem set_obj (fs : List (String × Json)) (k : String) (v : Json) : (Json.obj fs).set k v = .obj (Json.put k v fs) := rfl

theorem field_obj (fs : List (String × Json)) (k : String) : field k (.obj fs) = fs.lookup k := rfl

theorem field_put (fs : List (String × Json)) (k k' : String) (v : Json) : field k' (.obj (Json.put k v fs)) = if k' = k then some v else field k' (.obj fs) :=
  lookup_put k k' v fs

theorem object_def (fs : List (String × Json)) : Json.object fs = fs.foldl (fun j f => j.set f.1 f.2) (.obj []) := rfl

/-- Fields of an object that is written down field by field. -/
theorem field_empty (k : String) : field k (.obj []) = none := rfl

theorem typed_type (t : String) (v : Json) : field "type" (typed t v) = some (.str t) := by
  simp [typed, object_def, set_obj, field_put]

theorem typed_value (t : String) (v : Json) : field "value" (typed t v) = some v := by
  simp [typed, object_def, set_obj, field_put]

theorem typed_inj {t : String} {v v' : Json} (h : typed t v = typed t v') : v = v' := by
  have := congrArg (field "value") h
  simpa [typed_value] using this

theorem object1_inj {k : String} {v v' : Json} (h : Json.object [(k, v)] = Json.object [(k, v')]) : v = v' := by
  have := congrArg (field k) h
  simpa [object_def, set_obj, field_put] using this

theorem intJson_inj {a b : Int} (h : intJson a = intJson b) : a = b := by
  simp only [intJson, Json.num.injEq] at h
  exact Rat.intCast_inj.mp h

theorem accidentals_inj : ∀ {as bs : List Accidental}, accidentalsJson as = accidentalsJson bs → as = bs := by
  intro as
  induction as with
  | nil => intro bs h; cases bs <;> simp [accidentalsJson] at h ⊢
  | cons a as ih =>
    intro bs h
    cases bs with
    | nil => simp [accidentalsJson] at h
    | cons b bs =>
      simp only [accidentalsJson, List.map_cons, Json.arr.injEq, List.cons.injEq, Json.str.injEq] at h
      have h1 : a = b := by
        have := h.1
        cases a <;> cases b <;> first | rfl | simp [Accidental.text] at this
      rw [h1, ih (bs := bs) (by simp only [accidentalsJson, h.2])]

theorem letterText_inj {a b : Letter} (h : a.text = b.text) : a = b := by
  cases a <;> cases b <;> first | rfl | simp [Letter.text] at h

theorem pitch_inj {p q : Pitch} (h : p.json = q.json) : p = q ∨ (∃ l, p = .letter l (some [])) ∨ ∃ l, q = .letter l (some []) := by
  have hm := congrArg (field "midi-note") h
  have hl := congrArg (field "letter") h
  have ha := congrArg (field "accidentals") h
  cases p <;> cases q <;> simp [Pitch.json, object_def, set_obj, field_put, field_empty] at hm hl ha
  · rename_i l as l' as'
    have h1 := letterText_inj hl
    have h2 := accidentals_inj ha
    subst h1
    cases as <;> cases as' <;> simp at h2 ⊢
    · exact h2.symm ▸ rfl
    · exact h2 ▸ rfl
    · exact .inl h2
  · left; rw [intJson_inj hm]

mutual
theorem durComp_inj : ∀ c d : DurComp, c.json = d.json → c = d
  | c, d, h => by
    have h1 := congrArg (field "denominator") h
    have h2 := congrArg (field "dots") h
    have h3 := congrArg (field "beats") h
    have h4 := congrArg (field "ms") h
    have h5 := congrArg (field "s") h
    have h6 := congrArg (field "components") h
    cases c <;> cases d <;> simp [DurComp.json, object_def, set_obj, field_put, field_empty] at h1 h2 h3 h4 h5 h6
    · rw [h1]; have := intJson_inj h2; congr 1; omega
    · rw [h3]
    · rw [h4]
    · rw [h5]
    · rw [durComps_inj _ _ h6]
    · rfl
theorem durComps_inj : ∀ cs ds : List DurComp, DurComp.jsons cs = DurComp.jsons ds → cs = ds
  | [], [], _ => rfl
  | [], _ :: _, h => by simp [DurComp.jsons] at h
  | _ :: _, [], h => by simp [DurComp.jsons] at h
  | c :: cs, d :: ds, h => by
    simp only [DurComp.jsons, List.cons.injEq] at h
    rw [durComp_inj c d h.1, durComps_inj cs ds h.2]
end

theorem dur_inj {d e : Dur} (h : durJson d = durJson e) : d = e := by
  have := object1_inj h
  simp only [Json.arr.injEq] at this
  exact durComps_inj d e this

mutual
theorem form_inj : ∀ f g : LispForm, WrittenForm f → WrittenForm g → f.json = g.json → f = g
  | .sym _, g, _, wg, h => by
    have ht := congrArg (field "type") h
    cases g <;> simp [WrittenForm] at wg <;> simp [LispForm.json, typed_type] at ht
    have := typed_inj h; simp at this; rw [this]
  | .num _, g, _, wg, h => by
    have ht := congrArg (field "type") h
    cases g <;> simp [WrittenForm] at wg <;> simp [LispForm.json, typed_type] at ht
    have := typed_inj h; simp at this; rw [this]
  | .str _, g, _, wg, h => by
    have ht := congrArg (field "type") h
    cases g <;> simp [WrittenForm] at wg <;> simp [LispForm.json, typed_type] at ht
    have := typed_inj h; simp at this; rw [this]
  | .quoted f, g, wf, wg, h => by
    have ht := congrArg (field "type") h
    cases g <;> simp [WrittenForm] at wf wg <;> simp [LispForm.json, typed_type] at ht
    rw [form_inj f _ wf wg (typed_inj h)]
  | .list fs, g, wf, wg, h => by
    have ht := congrArg (field "type") h
    cases g <;> simp [WrittenForm] at wf wg <;> simp [LispForm.json, typed_type] at ht
    have := typed_inj h
    simp only [Json.arr.injEq] at this
    rw [forms_inj fs _ wf wg this]
theorem forms_inj : ∀ fs gs : List LispForm, WrittenForms fs → WrittenForms gs → LispForm.jsons fs = LispForm.jsons gs → fs = gs
  | [], [], _, _, _ => rfl
  | [], _ :: _, _, _, h => by simp [LispForm.jsons] at h
  | _ :: _, [], _, _, h => by simp [LispForm.jsons] at h
  | f :: fs, g :: gs, wf, wg, h => by
    simp only [LispForm.jsons, List.cons.injEq] at h
    rw [form_inj f g wf.1 wg.1 h.1, forms_inj fs gs wf.2 wg.2 h.2]
end

/-- The type that is shown. -/
def Leaf.tag : Leaf → String
  | .note .. => "note"
  | .rest _ => "rest"
  | .attr _ => "attribute-update"
  | .globalAttr _ => "global-attribute-update"

def Upd.tag : Upd → String
  | .leaf l => l.tag
  | .lisp _ => "list"
  | .lispNil => "nil"
  | .barline => "barline"
  | .chord _ => "chord"
  | .cram _ _ => "cram"
  | .seq _ => "event-sequence"
  | .rep _ _ => "repeat"
  | .onReps _ _ => "on-repetitions"
  | .voice _ => "voice-marker"
  | .voiceEnd => "voice-group-end-marker"
  | .marker _ => "marker"
  | .atMarker _ => "at-marker"
  | .varDef _ _ => "variable-definition"
  | .varRef _ => "variable-reference"
  | .partDecl _ _ => "part-declaration"

theorem leaf_type (l : Leaf) : field "type" l.json = some (.str l.tag) := by
  cases l with
  | note p d s => exact typed_type _ _
  | rest d => exact typed_type _ _
  | attr u => cases u <;> simp [Leaf.json, PartUpd.json, durJson, object_def, set_obj, field_put, Leaf.tag]
  | globalAttr u => cases u <;> simp [Leaf.json, PartUpd.json, durJson, object_def, set_obj, field_put, Leaf.tag]

theorem upd_type (u : Upd) : field "type" u.json = some (.str u.tag) := by
  cases u <;> (try rw [Upd.json]) <;> first
    | exact leaf_type _
    | exact typed_type _ _
    | simp [object_def, set_obj, field_put, Upd.tag]

theorem field_object1 (k k' : String) (v : Json) : field k' (Json.object [(k, v)]) = if k' = k then some v else none := by
  simp only [object_def, List.foldl, set_obj, field_put, field_empty]

theorem withDuration_fields {k : String} {v : Json} {d : Dur} (hk : k ≠ "duration") : field k (withDuration (Json.object [(k, v)]) d) = some v ∧
    field "duration" (withDuration (Json.object [(k, v)]) d) = if d.isEmpty then none else some (durJson d) := by
  unfold withDuration
  split
  · simp [field_object1, hk.symm]
  · simp [object_def, set_obj, field_put, hk]

theorem optDur_inj {d e : Dur} (h : (if d.isEmpty then none else some (durJson d)) = (if e.isEmpty then none else some (durJson e))) : d = e := by
  cases d <;> cases e <;> simp at h ⊢
  have := dur_inj h
  simpa using this

theorem note_fields (p : Pitch) (d : Dur) (s : Bool) : ∃ v, (Leaf.note p d s).json = typed "note" v ∧ field "pitch" v = some p.json ∧
    field "duration" v = (if d.isEmpty then none else some (durJson d)) ∧ field "slurred?" v = if s then some (.bool true) else none := by
  refine ⟨_, rfl, ?_⟩
  cases s <;> cases d <;> simp [withDuration, object_def, set_obj, field_put, field_empty]

theorem rest_fields (d : Dur) : ∃ v, (Leaf.rest d).json = typed "rest" v ∧ field "duration" v = (if d.isEmpty then none else some (durJson d)) := by
  refine ⟨_, rfl, ?_⟩
  cases d <;> simp [withDuration, object_def, set_obj, field_put, field_empty]

theorem octave_inj {u v : PartUpd} (hu : WrittenLeaf (.attr u)) (hv : WrittenLeaf (.attr v)) (h : (Leaf.attr u).json = (Leaf.attr v).json) : u = v := by
  have h1 := congrArg (field "value") h
  cases u <;> simp [WrittenLeaf] at hu <;> cases v <;> simp [WrittenLeaf] at hv <;>
    simp [Leaf.json, PartUpd.json, object_def, set_obj, field_put, intJson] at h1
  · rw [h1]
  · rfl
  · rfl

theorem leaf_inj {l m : Leaf} (hl : WrittenLeaf l) (hm : WrittenLeaf m) (sl : Syn.SpelledLeaf l) (sm : Syn.SpelledLeaf m) (h : l.json = m.json) : l = m := by
  have ht := congrArg (field "type") h
  rw [leaf_type, leaf_type] at ht
  cases l with
  | note p d s =>
    cases m <;> simp [Leaf.tag] at ht
    rename_i q e t
    obtain ⟨v, hv, h1, h2, h3⟩ := note_fields p d s
    obtain ⟨w, hw, i1, i2, i3⟩ := note_fields q e t
    rw [hv, hw] at h
    have hvw := typed_inj h
    subst hvw
    rw [h1] at i1; rw [h2] at i2; rw [h3] at i3
    have e2 := optDur_inj i2
    have e3 : s = t := by cases s <;> cases t <;> simp at i3 ⊢
    simp only [Option.some.injEq] at i1
    rcases pitch_inj i1 with e1 | ⟨l, e1⟩ | ⟨l, e1⟩
    · rw [e1, e2, e3]
    · subst e1; simp [Syn.SpelledLeaf] at sl
    · subst e1; simp [Syn.SpelledLeaf] at sm
  | rest d =>
    cases m <;> simp [Leaf.tag] at ht
    rename_i e
    obtain ⟨v, hv, h1⟩ := rest_fields d
    obtain ⟨w, hw, i1⟩ := rest_fields e
    rw [hv, hw] at h
    have hvw := typed_inj h
    subst hvw
    rw [h1] at i1
    rw [optDur_inj i1]
  | attr u =>
    cases m <;> simp [Leaf.tag] at ht
    rw [octave_inj hl hm h]
  | globalAttr u => simp [WrittenLeaf] at hl

theorem ranges_inj : ∀ {rs qs : List (Int × Int)}, rs.map rangeJson = qs.map rangeJson → rs = qs := by
  intro rs
  induction rs with
  | nil => intro qs h; cases qs <;> simp at h ⊢
  | cons r rs ih =>
    intro qs h
    cases qs with
    | nil => simp at h
    | cons q qs =>
      simp only [List.map_cons, List.cons.injEq] at h
      have h1 := congrArg (field "first") h.1
      have h2 := congrArg (field "last") h.1
      simp [rangeJson, object_def, set_obj, field_put] at h1 h2
      rw [ih h.2, Prod.ext (intJson_inj h1) (intJson_inj h2)]

theorem strs_inj : ∀ {as bs : List String}, as.map Json.str = bs.map Json.str → as = bs := by
  intro as
  induction as with
  | nil => intro bs h; cases bs <;> simp at h ⊢
  | cons a as ih =>
    intro bs h
    cases bs with
    | nil => simp at h
    | cons b bs =>
      simp only [List.map_cons, List.cons.injEq, Json.str.injEq] at h
      rw [h.1, ih h.2]

theorem decl_inj {ns ms : List String} {a b : String} (h : (Upd.partDecl ns a).json = (Upd.partDecl ms b).json) : ns = ms ∧ a = b := by
  have hv := typed_inj h
  have h1 := congrArg (field "names") hv
  have h2 := congrArg (field "alias") hv
  by_cases ha : a = "" <;> by_cases hb : b = "" <;> simp [ha, hb, object_def, set_obj, field_put, field_empty] at h1 h2
  · exact ⟨strs_inj h1, by rw [ha, hb]⟩
  · exact ⟨strs_inj h1, h2⟩

mutual
theorem upd_inj : ∀ u v : Upd, Written u → Written v → Syn.Spelled u → Syn.Spelled v → u.json = v.json → nameless u = nameless v
  | .leaf l, v, wu, wv, su, sv, h => by
    have ht := congrArg (field "type") h
    rw [upd_type, upd_type] at ht
    cases v <;> first
      | (cases l <;> simp [Upd.tag, Leaf.tag] at ht; done)
      | skip
    rename_i m
    simp only [Written] at wu wv
    simp only [Syn.Spelled] at su sv
    simp only [Upd.json] at h
    rw [leaf_inj wu wv su sv h]
  | .lisp fs, v, wu, wv, su, sv, h => by
    have ht := congrArg (field "type") h
    rw [upd_type, upd_type] at ht
    cases v <;> first
      | (simp [Upd.tag] at ht; done)
      | (rename_i l; cases l <;> simp [Upd.tag, Leaf.tag] at ht; done)
      | skip
    rename_i gs
    simp only [Written] at wu wv
    simp only [Upd.json] at h
    have := typed_inj h
    simp only [Json.arr.injEq] at this
    rw [forms_inj fs gs wu wv this]
  | .lispNil, v, wu, wv, su, sv, h => by
    have ht := congrArg (field "type") h
    rw [upd_type, upd_type] at ht
    cases v <;> first
      | (simp [Upd.tag] at ht; done)
      | (rename_i l; cases l <;> simp [Upd.tag, Leaf.tag] at ht; done)
      | skip
    rfl
  | .barline, v, wu, wv, su, sv, h => by
    have ht := congrArg (field "type") h
    rw [upd_type, upd_type] at ht
    cases v <;> first
      | (simp [Upd.tag] at ht; done)
      | (rename_i l; cases l <;> simp [Upd.tag, Leaf.tag] at ht; done)
      | skip
    rfl
  | .chord us, v, wu, wv, su, sv, h => by
    have ht := congrArg (field "type") h
    rw [upd_type, upd_type] at ht
    cases v <;> first
      | (simp [Upd.tag] at ht; done)
      | (rename_i l; cases l <;> simp [Upd.tag, Leaf.tag] at ht; done)
      | skip
    rename_i vs
    simp only [Written] at wu wv
    simp only [Syn.Spelled] at su sv
    simp only [Upd.json] at h
    have := object1_inj (typed_inj h)
    simp only [Json.arr.injEq] at this
    simp only [nameless]
    rw [upds_inj us vs wu wv su sv this]
  | .cram us d, v, wu, wv, su, sv, h => by
    have ht := congrArg (field "type") h
    rw [upd_type, upd_type] at ht
    cases v <;> first
      | (simp [Upd.tag] at ht; done)
      | (rename_i l; cases l <;> simp [Upd.tag, Leaf.tag] at ht; done)
      | skip
    rename_i vs e
    simp only [Written] at wu wv
    simp only [Syn.Spelled] at su sv
    simp only [Upd.json] at h
    have hv := typed_inj h
    have h1 := congrArg (field "events") hv
    have h2 := congrArg (field "duration") hv
    rw [(withDuration_fields (by simp)).1, (withDuration_fields (by simp)).1] at h1
    rw [(withDuration_fields (by simp)).2, (withDuration_fields (by simp)).2] at h2
    simp only [Option.some.injEq, Json.arr.injEq] at h1
    simp only [nameless]
    rw [upds_inj us vs wu wv su sv h1, optDur_inj h2]
  | .seq us, v, wu, wv, su, sv, h => by
    have ht := congrArg (field "type") h
    rw [upd_type, upd_type] at ht
    cases v <;> first
      | (simp [Upd.tag] at ht; done)
      | (rename_i l; cases l <;> simp [Upd.tag, Leaf.tag] at ht; done)
      | skip
    rename_i vs
    simp only [Written] at wu wv
    simp only [Syn.Spelled] at su sv
    simp only [Upd.json] at h
    have := object1_inj (typed_inj h)
    simp only [Json.arr.injEq] at this
    simp only [nameless]
    rw [upds_inj us vs wu wv su sv this]
  | .rep u n, v, wu, wv, su, sv, h => by
    have ht := congrArg (field "type") h
    rw [upd_type, upd_type] at ht
    cases v <;> first
      | (simp [Upd.tag] at ht; done)
      | (rename_i l; cases l <;> simp [Upd.tag, Leaf.tag] at ht; done)
      | skip
    rename_i v m
    simp only [Written] at wu wv
    simp only [Syn.Spelled] at su sv
    simp only [Upd.json] at h
    have hv := typed_inj h
    have h1 := congrArg (field "event") hv
    have h2 := congrArg (field "times") hv
    simp [object_def, set_obj, field_put] at h1 h2
    simp only [nameless]
    rw [upd_inj u v wu wv su sv h1, intJson_inj h2]
  | .onReps rs u, v, wu, wv, su, sv, h => by
    have ht := congrArg (field "type") h
    rw [upd_type, upd_type] at ht
    cases v <;> first
      | (simp [Upd.tag] at ht; done)
      | (rename_i l; cases l <;> simp [Upd.tag, Leaf.tag] at ht; done)
      | skip
    rename_i qs v
    simp only [Written] at wu wv
    simp only [Syn.Spelled] at su sv
    simp only [Upd.json] at h
    have hv := typed_inj h
    have h1 := congrArg (field "event") hv
    have h2 := congrArg (field "repetitions") hv
    simp only [object_def, List.foldl, set_obj, field_put, Option.some.injEq, if_true, String.reduceEq, if_false, Json.arr.injEq] at h1 h2
    simp only [nameless]
    rw [upd_inj u v wu wv su sv h1, ranges_inj h2]
  | .voice n, v, wu, wv, su, sv, h => by
    have ht := congrArg (field "type") h
    rw [upd_type, upd_type] at ht
    cases v <;> first
      | (simp [Upd.tag] at ht; done)
      | (rename_i l; cases l <;> simp [Upd.tag, Leaf.tag] at ht; done)
      | skip
    simp only [Upd.json] at h
    rw [intJson_inj (object1_inj (typed_inj h))]
  | .voiceEnd, v, wu, wv, su, sv, h => by
    have ht := congrArg (field "type") h
    rw [upd_type, upd_type] at ht
    cases v <;> first
      | (simp [Upd.tag] at ht; done)
      | (rename_i l; cases l <;> simp [Upd.tag, Leaf.tag] at ht; done)
      | skip
    rfl
  | .marker s, v, wu, wv, su, sv, h => by
    have ht := congrArg (field "type") h
    rw [upd_type, upd_type] at ht
    cases v <;> first
      | (simp [Upd.tag] at ht; done)
      | (rename_i l; cases l <;> simp [Upd.tag, Leaf.tag] at ht; done)
      | skip
    simp only [Upd.json] at h
    have := object1_inj (typed_inj h)
    simp only [Json.str.injEq] at this
    rw [this]
  | .atMarker s, v, wu, wv, su, sv, h => by
    have ht := congrArg (field "type") h
    rw [upd_type, upd_type] at ht
    cases v <;> first
      | (simp [Upd.tag] at ht; done)
      | (rename_i l; cases l <;> simp [Upd.tag, Leaf.tag] at ht; done)
      | skip
    simp only [Upd.json] at h
    have := object1_inj (typed_inj h)
    simp only [Json.str.injEq] at this
    rw [this]
  | .varDef n us, v, wu, wv, su, sv, h => by
    have ht := congrArg (field "type") h
    rw [upd_type, upd_type] at ht
    cases v <;> first
      | (simp [Upd.tag] at ht; done)
      | (rename_i l; cases l <;> simp [Upd.tag, Leaf.tag] at ht; done)
      | skip
    rename_i m vs
    simp only [Written] at wu wv
    simp only [Syn.Spelled] at su sv
    simp only [Upd.json] at h
    have := object1_inj (typed_inj h)
    simp only [Json.arr.injEq] at this
    simp only [nameless]
    rw [upds_inj us vs wu wv su sv this]
  | .varRef s, v, wu, wv, su, sv, h => by
    have ht := congrArg (field "type") h
    rw [upd_type, upd_type] at ht
    cases v <;> first
      | (simp [Upd.tag] at ht; done)
      | (rename_i l; cases l <;> simp [Upd.tag, Leaf.tag] at ht; done)
      | skip
    simp only [Upd.json] at h
    have := object1_inj (typed_inj h)
    simp only [Json.str.injEq] at this
    rw [this]
  | .partDecl ns a, v, wu, wv, su, sv, h => by
    have ht := congrArg (field "type") h
    rw [upd_type, upd_type] at ht
    cases v <;> first
      | (simp [Upd.tag] at ht; done)
      | (rename_i l; cases l <;> simp [Upd.tag, Leaf.tag] at ht; done)
      | skip
    obtain ⟨h1, h2⟩ := decl_inj h
    rw [h1, h2]
theorem upds_inj : ∀ us vs : List Upd, WrittenL us → WrittenL vs → Syn.SpelledL us → Syn.SpelledL vs → Upd.jsons us = Upd.jsons vs → namelesses us = namelesses vs
  | [], [], _, _, _, _, _ => rfl
  | [], _ :: _, _, _, _, _, h => by simp [Upd.jsons] at h
  | _ :: _, [], _, _, _, _, h => by simp [Upd.jsons] at h
  | u :: us, v :: vs, wu, wv, su, sv, h => by
    simp only [WrittenL] at wu wv
    simp only [Syn.SpelledL] at su sv
    simp only [Upd.jsons, List.cons.injEq] at h
    simp only [namelesses]
    rw [upd_inj u v wu.1 wv.1 su.1 sv.1 h.1, upds_inj us vs wu.2 wv.2 su.2 sv.2 h.2]
end

mutual
theorem nameless_self : ∀ u : Upd, NoDefinitions u → nameless u = u
  | .chord us, h => by simp only [NoDefinitions] at h; simp only [nameless, namelesses_self us h]
  | .cram us _, h => by simp only [NoDefinitions] at h; simp only [nameless, namelesses_self us h]
  | .seq us, h => by simp only [NoDefinitions] at h; simp only [nameless, namelesses_self us h]
  | .rep u _, h => by simp only [NoDefinitions] at h; simp only [nameless, nameless_self u h]
  | .onReps _ u, h => by simp only [NoDefinitions] at h; simp only [nameless, nameless_self u h]
  | .varDef _ _, h => by simp only [NoDefinitions] at h
  | .leaf _, _ => rfl
  | .lisp _, _ => rfl
  | .lispNil, _ => rfl
  | .barline, _ => rfl
  | .voice _, _ => rfl
  | .voiceEnd, _ => rfl
  | .marker _, _ => rfl
  | .atMarker _, _ => rfl
  | .varRef _, _ => rfl
  | .partDecl _ _, _ => rfl
theorem namelesses_self : ∀ us : List Upd, NoDefinitionsL us → namelesses us = us
  | [], _ => rfl
  | u :: us, h => by simp only [NoDefinitionsL] at h; simp only [namelesses, nameless_self u h.1, namelesses_self us h.2]
end

mutual
theorem nameless_noDefinitions : ∀ u : Upd, NoDefinitions (nameless u) → NoDefinitions u
  | .chord us, h => by simp only [nameless, NoDefinitions] at h ⊢; exact namelesses_noDefinitions us h
  | .cram us _, h => by simp only [nameless, NoDefinitions] at h ⊢; exact namelesses_noDefinitions us h
  | .seq us, h => by simp only [nameless, NoDefinitions] at h ⊢; exact namelesses_noDefinitions us h
  | .rep u _, h => by simp only [nameless, NoDefinitions] at h ⊢; exact nameless_noDefinitions u h
  | .onReps _ u, h => by simp only [nameless, NoDefinitions] at h ⊢; exact nameless_noDefinitions u h
  | .varDef _ _, h => by simp only [nameless, NoDefinitions] at h
  | .leaf _, _ => by simp [NoDefinitions]
  | .lisp _, _ => by simp [NoDefinitions]
  | .lispNil, _ => by simp [NoDefinitions]
  | .barline, _ => by simp [NoDefinitions]
  | .voice _, _ => by simp [NoDefinitions]
  | .voiceEnd, _ => by simp [NoDefinitions]
  | .marker _, _ => by simp [NoDefinitions]
  | .atMarker _, _ => by simp [NoDefinitions]
  | .varRef _, _ => by simp [NoDefinitions]
  | .partDecl _ _, _ => by simp [NoDefinitions]
theorem namelesses_noDefinitions : ∀ us : List Upd, NoDefinitionsL (namelesses us) → NoDefinitionsL us
  | [], _ => trivial
  | u :: us, h => by
    simp only [namelesses, NoDefinitionsL] at h ⊢
    exact ⟨nameless_noDefinitions u h.1, namelesses_noDefinitions us h.2⟩
end

mutual
/-- The events that are shown do not depend on the names of the variables that are defined. -/
theorem json_nameless : ∀ u : Upd, (nameless u).json = u.json
  | .chord us => by simp only [nameless, Upd.json, jsons_nameless us]
  | .cram us _ => by simp only [nameless, Upd.json, jsons_nameless us]
  | .seq us => by simp only [nameless, Upd.json, jsons_nameless us]
  | .rep u _ => by simp only [nameless, Upd.json, json_nameless u]
  | .onReps _ u => by simp only [nameless, Upd.json, json_nameless u]
  | .varDef _ us => by simp only [nameless, Upd.json, jsons_nameless us]
  | .leaf _ => rfl
  | .lisp _ => rfl
  | .lispNil => rfl
  | .barline => rfl
  | .voice _ => rfl
  | .voiceEnd => rfl
  | .marker _ => rfl
  | .atMarker _ => rfl
  | .varRef _ => rfl
  | .partDecl _ _ => rfl
theorem jsons_nameless : ∀ us : List Upd, Upd.jsons (namelesses us) = Upd.jsons us
  | [] => rfl
  | u :: us => by simp only [namelesses, Upd.jsons, json_nameless u, jsons_nameless us]
end

mutual
/-- A test for equality. -/
def Json.same : Json → Json → Bool
  | .bool a, .bool b => a == b
  | .num a, .num b => a == b
  | .str a, .str b => a == b
  | .arr as, .arr bs => Json.sames as bs
  | .obj as, .obj bs => Json.sameFields as bs
  | _, _ => false
/-- The same for arrays. -/
def Json.sames : List Json → List Json → Bool
  | [], [] => true
  | a :: as, b :: bs => Json.same a b && Json.sames as bs
  | _, _ => false
/-- The same for the fields of objects. -/
def Json.sameFields : List (String × Json) → List (String × Json) → Bool
  | [], [] => true
  | (k, a) :: as, (l, b) :: bs => (k == l && Json.same a b) && Json.sameFields as bs
  | _, _ => false
end

mutual
theorem Json.eq_of_same : ∀ a b : Json, Json.same a b = true → a = b
  | .bool a, b, h => by cases b <;> simp_all [Json.same]
  | .num a, b, h => by cases b <;> simp_all [Json.same]
  | .str a, b, h => by cases b <;> simp_all [Json.same]
  | .arr as, b, h => by
    cases b with
    | arr bs => simp only [Json.same] at h; rw [Json.eq_of_sames as bs h]
    | _ => simp [Json.same] at h
  | .obj as, b, h => by
    cases b with
    | obj bs => simp only [Json.same] at h; rw [Json.eq_of_sameFields as bs h]
    | _ => simp [Json.same] at h
theorem Json.eq_of_sames : ∀ as bs : List Json, Json.sames as bs = true → as = bs
  | [], bs, h => by cases bs <;> simp_all [Json.sames]
  | a :: as, bs, h => by
    cases bs with
    | nil => simp [Json.sames] at h
    | cons b bs =>
      simp only [Json.sames, Bool.and_eq_true] at h
      rw [Json.eq_of_same a b h.1, Json.eq_of_sames as bs h.2]
theorem Json.eq_of_sameFields : ∀ as bs : List (String × Json), Json.sameFields as bs = true → as = bs
  | [], bs, h => by cases bs <;> simp_all [Json.sameFields]
  | (k, a) :: as, bs, h => by
    cases bs with
    | nil => simp [Json.sameFields] at h
    | cons b bs =>
      obtain ⟨l, b⟩ := b
      simp only [Json.sameFields, Bool.and_eq_true, beq_iff_eq] at h
      rw [h.1.1, Json.eq_of_same a b h.1.2, Json.eq_of_sameFields as bs h.2]
end

end Alda
