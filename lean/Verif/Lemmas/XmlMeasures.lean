import Verif.Lemmas.XmlDone
/-!
The importer follows the reading of a part: voices, measures, and the whole part.
-/
namespace Alda
namespace Importer
open Spec

/-! ### The voices of a part -/

/-- New voices with these numbers. -/
def freshVoices (V : List Nat) : List (Int × Voice) := V.map (fun n : Nat => ((n : Int), newVoice))

theorem assign_fresh (n : Nat) : ∀ V : List Nat, assign (n : Int) newVoice (freshVoices V) = freshVoices (if n ∈ V then V else V ++ [n]) := by
  intro V
  unfold freshVoices
  induction V with
  | nil => simp [assign]
  | cons m V ih =>
    rw [List.map_cons, assign]
    by_cases h : m = n
    · subst h; simp
    · have h' : ¬ (m : Int) = n := by omega
      simp only [h', if_false, ih, List.mem_cons]
      by_cases h2 : n ∈ V
      · simp [h2]
      · simp [h2, show ¬ n = m from fun e => h e.symm]

theorem numeral_unique {a b : Nat} {s : String} (h1 : NumeralOf a s) (h2 : NumeralOf b s) : a = b := h1.2.2.symm.trans h2.2.2

/-- What looking for voices leads to. -/
def Found (V V' : List Nat) (ts : List String) : Prop := V'.Nodup ∧ (∀ n ∈ V, n ∈ V') ∧ Known V' ts ∧ ∀ n ∈ V', n ∈ V ∨ (1 ≤ n ∧ n ≤ 127)

mutual
theorem createVoices_ok : ∀ (e : Elem) (V : List Nat), V.Nodup → (∀ t ∈ voiceTexts e, ∃ n, NumeralOf n t ∧ 1 ≤ n ∧ n ≤ 127) →
    ∃ V', createVoices e (freshVoices V) = freshVoices V' ∧ Found V V' (voiceTexts e)
  | .mk tag attrs text children, V, hV, h => by
    simp only [voiceTexts, List.mem_append] at h
    unfold createVoices
    by_cases ht : tag = "voice"
    · rw [if_pos ht]
      obtain ⟨n, h1, h2, h3⟩ := h text (.inl (by rw [if_pos ht]; simp))
      rw [parseInt_numeral (bits := 32) h1 (by simpa using by omega), assign_fresh]
      obtain ⟨V', e1, e2, e3, e4, e5⟩ := createVoicesIn_ok children (if n ∈ V then V else V ++ [n]) (by
        split
        · exact hV
        · rename_i hn
          rw [List.nodup_append]
          exact ⟨hV, by simp, fun a ha b hb => by rw [List.mem_singleton] at hb; subst hb; intro e; subst e; exact hn ha⟩) (fun t ht' => h t (.inr ht'))
      refine ⟨V', e1, e2, ?_, ?_, ?_⟩
      · intro m hm
        refine e3 m ?_
        split
        · exact hm
        · exact List.mem_append_left _ hm
      · intro t ht' m hm
        simp only [voiceTexts, List.mem_append, if_pos ht, List.mem_singleton] at ht'
        rcases ht' with rfl | ht'
        · rw [numeral_unique hm h1]
          refine e3 n ?_
          split
          · assumption
          · simp
        · exact e4 t ht' m hm
      · intro m hm
        rcases e5 m hm with h | h
        · split at h
          · exact .inl h
          · rcases List.mem_append.1 h with h | h
            · exact .inl h
            · rw [List.mem_singleton] at h; subst h; exact .inr ⟨h2, h3⟩
        · exact .inr h
    · rw [if_neg ht]
      obtain ⟨V', e1, e2, e3, e4, e5⟩ := createVoicesIn_ok children V hV (fun t ht' => h t (.inr ht'))
      refine ⟨V', e1, e2, e3, ?_, e5⟩
      intro t ht' m hm
      simp only [voiceTexts, List.mem_append, if_neg ht, List.not_mem_nil, false_or] at ht'
      exact e4 t ht' m hm
theorem createVoicesIn_ok : ∀ (es : List Elem) (V : List Nat), V.Nodup → (∀ t ∈ voiceTextsIn es, ∃ n, NumeralOf n t ∧ 1 ≤ n ∧ n ≤ 127) →
    ∃ V', createVoicesIn es (freshVoices V) = freshVoices V' ∧ Found V V' (voiceTextsIn es)
  | [], V, hV, _ => ⟨V, by unfold createVoicesIn; rfl, hV, fun _ h => h, fun t ht => by simp [voiceTextsIn] at ht, fun _ h => .inl h⟩
  | e :: es, V, hV, h => by
    simp only [voiceTextsIn, List.mem_append] at h
    obtain ⟨V1, a1, a2, a3, a4, a5⟩ := createVoices_ok e V hV (fun t ht => h t (.inl ht))
    obtain ⟨V2, b1, b2, b3, b4, b5⟩ := createVoicesIn_ok es V1 a2 (fun t ht => h t (.inr ht))
    refine ⟨V2, ?_, b2, fun n hn => b3 n (a3 n hn), ?_, ?_⟩
    · unfold createVoicesIn; rw [a1, b1]
    · intro t ht n hn
      simp only [voiceTextsIn, List.mem_append] at ht
      rcases ht with ht | ht
      · exact b3 n (a4 t ht n hn)
      · exact b4 t ht n hn
    · intro n hn
      rcases b5 n hn with h | h
      · exact a5 n h
      · exact .inr h
end

/-! ### Measures -/

/-- The part after its last measure. -/
structure Done (D : Nat) (K : KeySig) (V : List Nat) (notes : List XmlNote) (p : XPart) : Prop where
  keys : p.voices.map (·.1) = V.map (fun n : Nat => (n : Int))
  cur : ∃ n ∈ V, p.cur = .at (n : Int)
  voices : ∀ n ∈ V, ∃ v a, p.voices.lookup (n : Int) = some v ∧ VoiceLike D K v a (inVoice n notes)

theorem perm_cast {V : List Nat} {l : List Int} (h : l.Perm (V.map (fun n : Nat => (n : Int)))) : ∃ ns : List Nat, l = ns.map (fun n : Nat => (n : Int)) ∧ ns.Perm V := by
  refine ⟨l.map Int.toNat, ?_, ?_⟩
  · have : ∀ x ∈ l, ((fun n : Nat => (n : Int)) ∘ Int.toNat) x = x := by
      intro x hx
      obtain ⟨n, _, rfl⟩ := List.mem_map.1 (h.mem_iff.1 hx)
      rfl
    rw [List.map_map, List.map_congr_left this, List.map_id']
  · have := h.map Int.toNat
    rw [List.map_map] at this
    have e : List.map (Int.toNat ∘ fun n : Nat => (n : Int)) V = V := by
      have : (Int.toNat ∘ fun n : Nat => (n : Int)) = id := by funext n; rfl
      rw [this, List.map_id]
    rwa [e] at this

section
variable {D : Nat} {K : KeySig} {V : List Nat}

theorem done_ok (h1 : 1 ≤ D) (h2 : D ≤ 24) {r : XmlReading} {E : Nat → Nat} {p : XPart} (h : PartOk D K V r E p) (hV : V.Nodup) {ns : List Nat} (hns : ns.Perm V) :
    ∃ p', cleanUp false (ns.map (fun n : Nat => (n : Int))) p = .ok p' ∧ Same p p' ∧ Done D K V r.notes p' := by
  have T := h.time
  obtain ⟨n0, hn0, hc0, _⟩ := h.cur
  obtain ⟨p', a1, a2, a3, a4, a5⟩ := cleanUp_last (D := D) (K := K) (V := V) h1 h2 (notes := r.notes) (b := r.cursor) ns p (hns.nodup_iff.2 hV) (fun n hn => hns.mem_iff.1 hn) h.keys h.beats (by
    intro n hn
    obtain ⟨v, hv, ok⟩ := h.voices n hn
    refine ⟨v, E n, hv, ok.toVoiceLike, fun _ => ⟨ok.beats, ?_⟩⟩
    have b1 := T.high
    have b2 := T.lag n hn
    omega) ⟨n0, hn0, hc0⟩
  exact ⟨p', a1, a2, a3, a4, a5⟩

theorem measures_ok (o : Orders) (fair : o.Fair) (h1 : 1 ≤ D) (h2 : D ≤ 24) {f : Int} (hf1 : -7 ≤ f) (hf2 : f ≤ 7) (hK : K = keySigFromFifths f) (hV : V.Nodup) {id : String} {es : List Elem}
    {ms : List (List XmlItem)} (he : MeasuresOf f es ms) : ∀ {e : Elem} {r : XmlReading} {E : Nat → Nat} {p p1 : XPart} {s : Imp}, s.At id p → handle o e s = .ok (s.put id p1) → PartOk D K V r E p1 →
    Known V (voiceTextsIn es) → r.nextBar.SensibleMeasures D ms →
    ∃ s' p', measures o (e :: es) s = .ok s' ∧ s'.cur = some id ∧ s'.parts = assign id p' s.parts ∧ Same p1 p' ∧ Done D K V (r.nextBar.measures ms).notes p' := by
  have start : ∀ {e : Elem} {es : List Elem} {s : Imp} {p1 p2 : XPart} (hh : handle o e s = .ok (s.put id p1)) (hcur : s.cur = some id)
      (hc : cleanUp (!es.isEmpty) (o.ofVoices s.rounds (p1.voices.map (·.1))) p1 = .ok p2),
      measures o (e :: es) s = measures o es { s.put id p2 with rounds := s.rounds + 1 } := by
    intro e es s p1 p2 hh hcur hc
    conv => lhs; unfold measures
    rw [hh]
    simp only [bind, Except.bind]
    rw [show (s.put id p1).cur = some id from hcur]
    simp only [need]
    rw [show (s.put id p1).parts.lookup id = some p1 from lookup_assign_self ..]
    simp only
    rw [show (s.put id p1).rounds = s.rounds from rfl, hc]
    simp only
    unfold Imp.put
    simp only [assign_assign, hcur]
  induction he with
  | nil =>
    intro e r E p p1 s hat hh ok _ _
    obtain ⟨ns, e1, e2⟩ := perm_cast (V := V) (l := o.ofVoices s.rounds (V.map (fun n : Nat => (n : Int)))) (fair.2 ..)
    obtain ⟨p2, a1, a2, a3⟩ := done_ok h1 h2 ok hV e2
    refine ⟨{ s.put id p2 with rounds := s.rounds + 1 }, p2, ?_, hat.1, rfl, a2, a3⟩
    rw [start hh hat.1 (by rw [ok.keys, e1]; exact a1)]
    unfold measures; rfl
  | @cons e2 es m ms ht hcont _ ih =>
    intro e r E p p1 s hat hh ok hk hs
    obtain ⟨ns, x1, x2⟩ := perm_cast (V := V) (l := o.ofVoices s.rounds (V.map (fun n : Nat => (n : Int)))) (fair.2 ..)
    obtain ⟨E2, p2, a1, a2, a3⟩ := nextBar_ok h1 h2 ok x2
    have hat2 : Imp.At { s.put id p2 with rounds := s.rounds + 1 } id p2 := ⟨hat.1, lookup_assign_self ..⟩
    obtain ⟨E3, p3, b1, b2, b3⟩ := content_ok o h1 h2 hf1 hf2 hK hcont a2 (fun t ht => hk t (by simp only [voiceTextsIn, List.mem_append]; exact .inl (voiceTexts_children ht))) hs.1 hat2
    obtain ⟨s', p', c1, c2, c3, c4, c5⟩ := ih hat2 (by rw [handle_measure o ht]; exact b1) b2 (fun t ht => hk t (by simp only [voiceTextsIn, List.mem_append]; exact .inr ht)) hs.2
    refine ⟨s', p', ?_, c2, ?_, a3.trans (b3.trans c4), c5⟩
    · rw [start hh hat.1 (by rw [ok.keys, x1]; exact a1)]
      exact c1
    · rw [c3]; show assign id p' (assign id p2 s.parts) = _; rw [assign_assign]

end

/-! ### A part -/

theorem handle_part (o : Orders) {e : Elem} (h : e.tag = "part") {id : String} (hid : e.attr "id" = some id) {s : Imp} {p : XPart} (hp : s.parts.lookup id = some p) :
    handle o e s = measures o e.children { s with cur := some id, parts := assign id (({ p with voices := createVoices e p.voices } : XPart).point 1) s.parts } := by
  obtain ⟨tag, attrs, text, children⟩ := e
  simp only [Elem.tag] at h; subst h
  unfold handle
  simp [Elem.children, hid, need, bind, Except.bind, hp]

/-! ### The voices of the notes -/

/-- The notes among the items are in these voices. -/
def InVoices (V : List Nat) (is : List XmlItem) : Prop := ∀ i ∈ is, ∀ v t c p, i = .note v t c p → v ∈ V

theorem mention_inVoices {V : List Nat} {e : Elem} {is : List XmlItem} (h : MentionOf e is) : InVoices V is := by
  rcases h with ⟨_, rfl⟩ | ⟨v, _, _, _, rfl⟩
  · intro i hi; simp at hi
  · intro i hi v t c p hh; simp only [List.mem_singleton] at hi; rw [hi] at hh; simp at hh

theorem InVoices.append {V : List Nat} {is js : List XmlItem} (h : InVoices V is) (h' : InVoices V js) : InVoices V (is ++ js) := by
  intro i hi
  rcases List.mem_append.1 hi with hi | hi
  · exact h i hi
  · exact h' i hi

theorem items_inVoices {V : List Nat} {f : Int} {e : Elem} {is : List XmlItem} (h : ItemsOf f e is) (hk : Known V (voiceTexts e)) : InVoices V is := by
  have one : ∀ i, (∀ v t c p, i ≠ XmlItem.note v t c p) → InVoices V [i] := by
    intro i hi j hj v t c p hh
    simp only [List.mem_singleton] at hj
    subst hj
    exact absurd hh (hi v t c p)
  cases h with
  | note v t c p hn =>
    intro i hi v' t' c' p' hh
    simp only [List.mem_singleton] at hi
    subst hi
    simp only [XmlItem.note.injEq] at hh
    rw [← hh.1]
    exact hk.voice hn.voice.1
  | forward t is _ hm => exact (mention_inVoices hm).append (one _ (by simp))
  | backup => exact one _ (by simp)
  | quiet _ _ hm => exact mention_inVoices hm
  | loud is _ hm => exact (mention_inVoices hm).append (one _ (by simp))

theorem content_inVoices {V : List Nat} {f : Int} {es : List Elem} {is : List XmlItem} (h : ContentOf f es is) : Known V (voiceTextsIn es) → InVoices V is := by
  induction h with
  | nil => intro _ i hi; simp at hi
  | cons he _ ih =>
    intro hk
    exact (items_inVoices he (fun t ht => hk t (by simp only [voiceTextsIn, List.mem_append]; exact .inl ht))).append (ih (fun t ht => hk t (by simp only [voiceTextsIn, List.mem_append]; exact .inr ht)))

theorem measures_inVoices {V : List Nat} {f : Int} {es : List Elem} {ms : List (List XmlItem)} (h : MeasuresOf f es ms) : Known V (voiceTextsIn es) → ∀ m ∈ ms, InVoices V m := by
  induction h with
  | nil => intro _ m hm; simp at hm
  | cons ht hc _ ih =>
    intro hk m hm
    rcases List.mem_cons.1 hm with rfl | hm
    · exact content_inVoices hc (fun t ht => hk t (by simp only [voiceTextsIn, List.mem_append]; exact .inl (voiceTexts_children ht)))
    · exact ih (fun t ht => hk t (by simp only [voiceTextsIn, List.mem_append]; exact .inr ht)) m hm

theorem item_voices {V : List Nat} {r : XmlReading} {i : XmlItem} (h : ∀ x ∈ r.notes, x.voice ∈ V) (hi : ∀ v t c p, i = .note v t c p → v ∈ V) : ∀ x ∈ (r.item i).notes, x.voice ∈ V := by
  intro x hx
  cases i with
  | note v t c p =>
    have hv := hi v t c p rfl
    cases c with
    | false =>
      simp only [XmlReading.item, List.mem_append, Option.mem_toList, Option.map_eq_some_iff] at hx
      rcases hx with hx | ⟨_, _, rfl⟩
      · exact h x hx
      · exact hv
    | true =>
      simp only [XmlReading.item, List.mem_append, Option.mem_toList, Option.map_eq_some_iff] at hx
      rcases hx with hx | ⟨_, _, rfl⟩
      · exact h x hx
      · exact hv
  | _ => exact h x hx

theorem items_voices {V : List Nat} : ∀ (is : List XmlItem) {r : XmlReading}, (∀ x ∈ r.notes, x.voice ∈ V) → InVoices V is → ∀ x ∈ (r.items is).notes, x.voice ∈ V
  | [], _, h, _ => h
  | i :: is, _, h, hi => items_voices is (item_voices h (hi i (List.mem_cons_self ..))) (fun j hj => hi j (List.mem_cons_of_mem _ hj))

theorem measures_voices {V : List Nat} : ∀ (ms : List (List XmlItem)) {r : XmlReading}, (∀ x ∈ r.notes, x.voice ∈ V) → (∀ m ∈ ms, InVoices V m) → ∀ x ∈ (r.measures ms).notes, x.voice ∈ V
  | [], _, h, _ => h
  | m :: ms, r, h, hm => measures_voices ms (r := (r.items m).nextBar) (items_voices m h (hm m (List.mem_cons_self ..))) (fun k hk => hm k (List.mem_cons_of_mem _ hk))

/-- A declared part without any music. -/
structure Declared (p : XPart) : Prop where
  divisions : p.divisions = 1
  beats : p.beats = 0
  updates : p.updates = []
  voices : p.voices = []
  opt : p.opt = newOptimizer

/-- The music of a part after its header. -/
structure Finished (V : List Nat) (head : XmlHead) (notes : List XmlNote) (p : XPart) : Prop where
  done : Done head.divisions (keySigFromFifths head.fifths) V notes p
  key : p.opt.key = keySigFromFifths head.fifths
  dur : p.opt.dur = []
  octave : p.opt.octave = -1
  heads : ∀ u ∈ p.updates, HeadUpd u
  says : headState p.updates = (keySigFromFifths head.fifths, head.transpose)
  fifths : -7 ≤ head.fifths ∧ head.fifths ≤ 7
  transpose : -128 ≤ head.transpose ∧ head.transpose ≤ 127
  nodup : V.Nodup
  first : 1 ∈ V
  positive : ∀ n ∈ V, 1 ≤ n ∧ n ≤ 127
  known : ∀ x ∈ notes, x.voice ∈ V

/-- A whole part. -/
theorem part_ok (o : Orders) (fair : o.Fair) {e : Elem} {head : XmlHead} {ms : List (List XmlItem)} (h : PartOf e head ms) {id : String} (hid : e.attr "id" = some id) {s : Imp} {p : XPart}
    (hp : s.parts.lookup id = some p) (hd : Declared p) :
    ∃ s' p' V, handle o e s = .ok s' ∧ s'.parts = assign id p' s.parts ∧ Alike p p' ∧ Finished V head (xmlNotes ms) p' := by
  obtain ⟨V, v1, v2, v3, v4, v5⟩ := createVoices_ok e [] (by simp) h.voices
  have hone : 1 ∈ V := by
    obtain ⟨t, t1, t2⟩ := h.first
    exact v4 t t1 1 t2
  rw [handle_part o h.tag hid hp]
  obtain ⟨m, pre, content, others, is, js, c1, c2, c3, c4, c5, c6, rfl⟩ := h.measures
  rw [c1]
  have hvo : createVoices e p.voices = freshVoices V := by rw [hd.voices]; exact v1
  have fresh : Fresh V .default (({ p with voices := createVoices e p.voices } : XPart).point 1) := by
    have hl : ({ p with voices := createVoices e p.voices } : XPart).voices.lookup 1 = some newVoice := by
      show (createVoices e p.voices).lookup 1 = _
      rw [hvo]
      unfold freshVoices
      rw [fresh_lookup, if_pos (show (1 : Int) ∈ V.map (fun n : Nat => (n : Int)) from List.mem_map.2 ⟨1, hone, rfl⟩)]
    rw [point_at hl]
    refine ⟨hd.divisions, hvo, hd.beats, rfl, ?_, ?_, ?_, ?_, ?_, by decide, by decide⟩
    · simp only; rw [hd.opt]; rfl
    · simp only; rw [hd.opt]; rfl
    · simp only; rw [hd.opt]; rfl
    · simp only; rw [hd.updates]; simp
    · simp only; rw [hd.updates]; rfl
  have al : Alike p (({ p with voices := createVoices e p.voices } : XPart).point 1) := ⟨rfl, rfl, rfl⟩
  generalize (({ p with voices := createVoices e p.voices } : XPart).point 1) = p0 at fresh al
  have hat : Imp.At { s with cur := some id, parts := assign id p0 s.parts } id p0 := ⟨rfl, lookup_assign_self ..⟩
  obtain ⟨p1, a1, a2, a3, a4⟩ := head_ok o hone c4 fresh hat
  have ok := a3.ok hone h.divisions.1
  have hsens := h.sensible
  have known : Known V (voiceTextsIn content) := by
    intro t ht
    refine v4 t (voiceTexts_children ?_)
    rw [c1]
    simp only [voiceTextsIn, List.mem_append]
    refine .inl (voiceTexts_children ?_)
    rw [c3]
    clear c3 c4 a1 a2
    induction pre with
    | nil => exact ht
    | cons x pre ih => simp only [List.cons_append, voiceTextsIn, List.mem_append]; exact .inr ih
  obtain ⟨E2, p2, b1, b2, b3⟩ := content_ok o h.divisions.1 h.divisions.2 a3.fifths.1 a3.fifths.2 rfl c5 ok known hsens.1 (hat.put p1)
  have hh : handle o m { s with cur := some id, parts := assign id p0 s.parts } = .ok (Imp.put { s with cur := some id, parts := assign id p0 s.parts } id p2) := by
    rw [handle_measure o c2, c3, measureContent_append, a2]
    simp only [bind, Except.bind]
    rw [b1, Imp.put_put]
  obtain ⟨s', p', d1, d2, d3, d4, d5⟩ := measures_ok o fair h.divisions.1 h.divisions.2 a3.fifths.1 a3.fifths.2 rfl v2 c6 hat hh b2 (by
    intro t ht
    refine v4 t (voiceTexts_children ?_)
    rw [c1]
    simp only [voiceTextsIn, List.mem_append]
    exact .inr ht) hsens.2
  have same := b3.trans d4
  refine ⟨s', p', V, d1, ?_, al.trans (a4.trans same.alike), d5, ?_, ?_, ?_, ?_, ?_, a3.fifths, a3.transpose, v2, hone, ?_, ?_⟩
  · rw [d3]; show assign id p' (assign id p0 s.parts) = _; rw [assign_assign]
  · rw [same.opt]; exact a3.key
  · rw [same.opt]; exact a3.dur
  · rw [same.opt]; exact a3.octave
  · rw [same.updates]; exact a3.heads
  · rw [same.updates]; exact a3.says
  · intro n hn
    rcases v5 n hn with h | h
    · simp at h
    · exact h
  · refine measures_voices (is :: js) (r := .start) (by simp [XmlReading.start]) ?_
    intro m' hm'
    rcases List.mem_cons.1 hm' with rfl | hm'
    · exact content_inVoices c5 known
    · refine measures_inVoices c6 ?_ m' hm'
      intro t ht
      refine v4 t (voiceTexts_children ?_)
      rw [c1]
      simp only [voiceTextsIn, List.mem_append]
      exact .inr ht

end Importer
end Alda
