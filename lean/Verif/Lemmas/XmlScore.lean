import Verif.Lemmas.XmlSing
import Verif.Props.Gen
/-!
The imported parts, one after the other: declaration, header, and music.
-/
namespace Alda
namespace Importer
open Spec Syn

section
variable {K : KeySig} {T : Int} {o : Nat} {start : Rat} {ks : List Int} {s : Score}

/-! ### The header -/

theorem Ensemble.head (h : Ensemble K T o start [] s) {u : Upd} (hu : HeadUpd u) :
    ∃ t, updWith derefUpd u s = .ok t ∧ Sung s t [] ∧ Ensemble (headStep (K, T) u).1 (headStep (K, T) u).2 o start [] t := by
  obtain ⟨c, h1, h2, h3, h4⟩ := h.cell
  have w := h.few.inv.good.wf
  have h4 : (s.heap c).template = none ∧ Blank K T o start (s.heap c) := by
    rcases h4 with ⟨_, a, b⟩ | ⟨_, _, _, a⟩
    · exact ⟨a, b⟩
    · exact absurd rfl a
  have key : ∃ (pu : PartUpd) (p : Part), u = .leaf (.attr pu) ∧ NoChannelLeaf (.attr pu) ∧ updatePart pu false (s.heap c) = .ok p ∧ SameIdentity (s.heap c) p ∧
      Blank (headStep (K, T) u).1 (headStep (K, T) u).2 o start p := by
    have hb := h4.2
    rcases hu with ⟨k, _, rfl⟩ | ⟨z, _, rfl⟩
    · exact ⟨_, _, rfl, trivial, rfl, ⟨rfl, rfl, rfl, rfl, rfl, rfl⟩, ⟨rfl, hb.1.2, hb.1.3, hb.1.4, hb.1.5, hb.1.6⟩, hb.2, hb.3, hb.4⟩
    · exact ⟨_, _, rfl, trivial, rfl, ⟨rfl, rfl, rfl, rfl, rfl, rfl⟩, ⟨hb.1.1, rfl, hb.1.3, hb.1.4, hb.1.5, hb.1.6⟩, hb.2, hb.3, hb.4⟩
  obtain ⟨pu, p, k1, k2, k3, k4, k5⟩ := key
  have e : attrUpd pu s = .ok (s.setPart c { p with override := some pu }) := by
    unfold attrUpd
    rw [h1, forIds_one]
    unfold attrPart
    rw [k3]
  have hst := attrUpd_steps (D := False) pu k2 s
  rw [e] at hst
  simp only [Out.ok] at hst
  have few := h.few.steps hst
  refine ⟨_, by rw [k1]; simp only [updWith, leafUpd]; exact e, ⟨few, h.nothing, h.mode, (hst.view w).1, (hst.stable w).2.1, (hst.stable w).2.2, by simp [Score.setPart]⟩,
    few, h.nothing, h.mode, c, h1, ?_, ?_, .inl ⟨rfl, ?_, ?_⟩⟩
  · simp only [Score.setPart, if_true]; exact k5.origin
  · simp only [Score.setPart, if_true]; rw [k4.voices]; exact h3
  · simp only [Score.setPart, if_true]; rw [k4.template]; exact h4.1
  · simp only [Score.setPart, if_true]; exact ⟨⟨k5.1.1, k5.1.2, k5.1.3, k5.1.4, k5.1.5, k5.1.6⟩, k5.2, k5.3, k5.4⟩

theorem Sung.refl {s : Score} (h1 : FewInv s) (h2 : NothingGlobal s) (h3 : s.chordMode = false) : Sung s s [] :=
  ⟨h1, h2, h3, .refl s, Nat.le_refl _, fun _ _ => ⟨rfl, rfl⟩, by simp⟩

theorem Ensemble.heads : ∀ (us : List Upd) {K : KeySig} {T : Int} {s : Score}, Ensemble K T o start [] s → (∀ u ∈ us, HeadUpd u) →
    ∃ t, update us s = .ok t ∧ Sung s t [] ∧ Ensemble (us.foldl headStep (K, T)).1 (us.foldl headStep (K, T)).2 o start [] t
  | [], _, _, s, h, _ => ⟨s, rfl, .refl h.few h.nothing h.mode, h⟩
  | u :: us, _, _, s, h, hu => by
    obtain ⟨t, a1, a2, a3⟩ := h.head (hu u (List.mem_cons_self ..))
    obtain ⟨t', b1, b2, b3⟩ := Ensemble.heads us a3 (fun v hv => hu v (List.mem_cons_of_mem _ hv))
    exact ⟨t', by rw [update_ok_cons a1]; exact b1, a2.trans b2, b3⟩

/-- A note as the score has it, played by the instrument `o`. -/
def expected (o : Nat) (head : XmlHead) (x : XmlNote) : Nat × Int × Rat × Rat :=
  (o, x.pitch.number head.transpose, (x.start : Rat) / head.divisions * 500, (x.length : Rat) / head.divisions * 500)

theorem toneView_toneOf (o : Nat) (head : XmlHead) (x : XmlNote) : toneView o head.transpose 0 (toneOf head.divisions x) = expected o head x := by
  unfold toneView toneOf expected XmlPitch.number
  simp only [Rat.zero_add, Prod.mk.injEq, and_true, true_and]
  omega

/-! ### Its text -/

theorem head_settle {u : Upd} (h : HeadUpd u) : Settleable u ∧ Neutral u ∧ Event u ∧ Printable u ∧ ¬ LengthLast u := by
  rcases h with ⟨f, _, rfl⟩ | ⟨z, hz, rfl⟩
  · exact ⟨.leaf _, fun _ => rfl, trivial, by simp only [Printable]; exact c31_fifths f, fun h => by simp [LengthLast] at h⟩
  · refine ⟨.leaf _, fun _ => rfl, trivial, ?_, fun h => by simp [LengthLast] at h⟩
    simp only [Printable, PrintableLeaf]; omega

theorem settle_heads : ∀ (us : List Upd) (vs : List Upd), (∀ u ∈ us, HeadUpd u) → settle (us ++ vs) = us ++ settle vs
  | [], _, _ => rfl
  | u :: us, vs, h => by
    rw [List.cons_append, settle_neutral (head_settle (h u (List.mem_cons_self ..))).2.1, settle_heads us vs (fun v hv => h v (List.mem_cons_of_mem _ hv))]
    rfl

theorem tidy_heads (b : Bool) (us vs : List Upd) (h : ∀ u ∈ us, HeadUpd u) : tidy b (us ++ vs) = us ++ tidy b vs := by
  cases b with
  | false => rfl
  | true => exact settle_heads us vs h

theorem print_heads {b v : Bool} {vs : List Upd} (hv : PrintableL b v vs) : ∀ us : List Upd, (∀ u ∈ us, HeadUpd u) → PrintableL b v (us ++ vs)
  | [], _ => hv
  | u :: us, h => by
    obtain ⟨_, _, h1, h2, h3⟩ := head_settle (h u (List.mem_cons_self ..))
    exact event_cons h1 h2 (fun _ _ x => h3 x.1) (print_heads hv us (fun v hv => h v (List.mem_cons_of_mem _ hv)))

theorem Written.settles {lines : List (Int × List Upd)} {us : List Upd} (h : Written K lines us) (hf : ∀ l ∈ lines, FlatL l.2 ∧ 1 ≤ l.1 ∧ l.1 ≤ 127) :
    (∀ u ∈ us, Settleable u) ∧ ((∀ u ∈ us, FiniteLengths u) → ∀ v, PrintableL false v (settle us) ∧ OpenStart (settle us)) := by
  induction h with
  | nil => exact ⟨by simp, fun _ v => ⟨by simp [settle, PrintableL], by simp [settle, OpenStart]⟩⟩
  | cons n es op rest us hk hd hw ih =>
    obtain ⟨h1, h2⟩ := hf (n, es) (List.mem_cons_self ..)
    obtain ⟨i1, i2⟩ := ih (fun l hl => hf l (List.mem_cons_of_mem _ hl))
    have hneat := optimize_neat op h1
    refine ⟨?_, fun hl v => ?_⟩
    · intro u hu
      rcases List.mem_append.1 hu with hu | hu
      · rcases List.mem_cons.1 hu with rfl | hu
        · exact .voice n
        · exact (neat_steady (hneat u hu)).settleable
      · exact i1 u hu
    · have e := hw.tidy true (n := n) (es := es) (op := op)
      simp only [Importer.tidy, if_true] at e
      rw [e]
      refine ⟨?_, by simp [OpenStart, BarlineFirst]⟩
      obtain ⟨j1, j2⟩ := i2 (fun u hu => hl u (List.mem_append_right _ hu)) true
      have := (settle_print j2 j1 (optimize op es).1 (fun u hu => ⟨hneat u hu, hl u (List.mem_append_left _ (List.mem_cons_of_mem _ hu))⟩)).1
      simp only [List.cons_append, PrintableL]
      exact ⟨h2.1, ⟨by have := h2.1; simp only at this; omega, by have := h2.2; simp only at this; omega⟩, this⟩

/-- A part after its declaration. -/
theorem Finished.plays {V : List Nat} {head : XmlHead} {notes : List XmlNote} {p : XPart} (h : Finished V head notes p)
    (hs : ∀ x ∈ notes, 0 ≤ x.pitch.number head.transpose ∧ x.pitch.number head.transpose ≤ 127) :
    ∃ us, p.generate = .ok (.partDecl p.instruments p.alias :: us) ∧ (∀ u ∈ us, Settleable u) ∧ ((∀ u ∈ us, FiniteLengths u) → PrintableL false false (settle us)) ∧
      ∀ {s : Score} {o : Nat} (b : Bool), Ensemble (keySigFromFifths 0) 0 o 0 [] s → ∃ t new, update (tidy b us) s = .ok t ∧ Sung s t new ∧ new.Perm (notes.map (expected o head)) := by
  have sound : ∀ {lines : List (List Upd)}, Scored head notes lines → ∀ l ∈ lines, Sounds head.transpose (startPen.run (keySigFromFifths head.fifths) l) := by
    intro lines sc l hl t ht
    have := sc.tones.mem_iff.1 (List.mem_flatMap.2 ⟨l, hl, ht⟩)
    obtain ⟨x, hx, rfl⟩ := List.mem_map.1 this
    have := hs x hx
    unfold XmlPitch.number at this
    simp only [toneOf, XmlPitch.number]
    omega
  have tones : ∀ {lines : List (List Upd)} (o : Nat), Scored head notes lines →
      (lines.flatMap (fun l => (startPen.run (keySigFromFifths head.fifths) l).tones.map (toneView o head.transpose 0))).Perm (notes.map (expected o head)) := by
    intro lines o sc
    have := sc.tones.map (toneView o head.transpose 0)
    rw [List.map_flatMap, List.map_map] at this
    rwa [show (toneView o head.transpose 0) ∘ (toneOf head.divisions) = expected o head from funext (toneView_toneOf o head)] at this
  have hhead : ∀ {s : Score} {o : Nat}, Ensemble (keySigFromFifths 0) 0 o 0 [] s →
      ∃ t, update p.updates s = .ok t ∧ Sung s t [] ∧ Ensemble (keySigFromFifths head.fifths) head.transpose o 0 [] t := by
    intro s o hen
    obtain ⟨t, a1, a2, a3⟩ := hen.heads p.updates h.heads
    rw [show List.foldl headStep (keySigFromFifths 0, 0) p.updates = headState p.updates from rfl, h.says] at a3
    exact ⟨t, a1, a2, a3⟩
  rcases h.generated with ⟨es, op, g1, g2, g3, g4⟩ | ⟨lines, us, g1, g2, g3, g4, g5⟩
  · have hneat := optimize_neat op (g4.flat es (List.mem_singleton.2 rfl))
    refine ⟨_, g1, ?_, ?_, fun {s o} b hen => ?_⟩
    · intro u hu
      rcases List.mem_append.1 hu with hu | hu
      · exact (head_settle (h.heads u hu)).1
      · exact (neat_steady (hneat u hu)).settleable
    · intro hl
      rw [settle_heads _ _ h.heads]
      have := (settle_print (v := false) (rest := []) (by simp [OpenStart]) (by simp [PrintableL]) (optimize op es).1 (fun u hu => ⟨hneat u hu, hl u (List.mem_append_right _ hu)⟩)).1
      rw [List.append_nil] at this
      exact print_heads this _ h.heads
    obtain ⟨t, a1, a2, a3⟩ := hhead hen
    obtain ⟨c, c1, c2, c3, c4⟩ := a3.cell
    have c4 : Blank (keySigFromFifths head.fifths) head.transpose o 0 (t.heap c) := by
      rcases c4 with ⟨_, _, b⟩ | ⟨_, _, _, a⟩
      · exact b
      · exact absurd rfl a
    obtain ⟨t', b1, b2, b3⟩ := line_plays (id := c) ⟨a3.few, c1, a3.nothing, a3.mode, c4.usual, c4.octave⟩ (g4.flat es (List.mem_singleton.2 rfl)) (sound g4 es (List.mem_singleton.2 rfl)) op g2 g3 b
    rw [c4.origin, c4.offset] at b2
    refine ⟨t', _, by rw [tidy_heads _ _ _ h.heads, update_ok_append a1]; exact b1, a2.trans b2, ?_⟩
    have := tones o g4
    simpa using this
  · have hset := g2.settles (fun l hl => ⟨g4.flat l.2 (List.mem_map_of_mem hl), g5 l hl⟩)
    refine ⟨_, g1, ?_, ?_, fun {s o} b hen => ?_⟩
    · intro u hu
      rcases List.mem_append.1 hu with hu | hu
      · exact (head_settle (h.heads u hu)).1
      · exact hset.1 u hu
    · intro hl
      rw [settle_heads _ _ h.heads]
      exact print_heads (hset.2 (fun u hu => hl u (List.mem_append_right _ hu)) false).1 _ h.heads
    obtain ⟨t, a1, a2, a3⟩ := hhead hen
    obtain ⟨t', b1, b2⟩ := Ensemble.lines b g2 a3 (by simpa using g3) (fun l hl => ⟨g4.flat l.2 (List.mem_map_of_mem hl), sound g4 l.2 (List.mem_map_of_mem hl)⟩)
    refine ⟨t', _, by rw [tidy_heads _ _ _ h.heads, update_ok_append a1]; exact b1, a2.trans b2, ?_⟩
    have := tones o g4
    rw [List.flatMap_map] at this
    simpa using this

end

/-! ### Declarations -/

theorem voiceEndUpd_keeps (s : Score) : (voiceEndUpd s).s.events = s.events ∧ (voiceEndUpd s).s.globals = s.globals ∧ (voiceEndUpd s).s.chordMode = s.chordMode := by
  unfold voiceEndUpd
  have : ∀ (l : List Nat) (s : Score), (forIds voiceEndAt l s).s.events = s.events ∧ (forIds voiceEndAt l s).s.globals = s.globals ∧ (forIds voiceEndAt l s).s.chordMode = s.chordMode := by
    intro l
    induction l with
    | nil => intro s; exact ⟨rfl, rfl, rfl⟩
    | cons i l ih =>
      intro s
      have one : (voiceEndAt i s).s.events = s.events ∧ (voiceEndAt i s).s.globals = s.globals ∧ (voiceEndAt i s).s.chordMode = s.chordMode := by
        unfold voiceEndAt
        split
        · exact ⟨rfl, rfl, rfl⟩
        · rename_i id _
          simp only
          cases (s.vheap (s.heap id).voices).getLast? with
          | none => exact ⟨rfl, rfl, rfl⟩
          | some x => exact ⟨rfl, rfl, rfl⟩
      simp only [forIds]
      rcases Out.andThen_s (voiceEndAt i s) (forIds voiceEndAt l) with ⟨_, h2, _⟩ | ⟨x, _, h2, _⟩
      · rw [h2]
        have := ih (voiceEndAt i s).s
        exact ⟨this.1.trans one.1, this.2.1.trans one.2.1, this.2.2.trans one.2.2⟩
      · rw [h2]; exact one
  exact this _ s

/-- Between the parts: the instruments so far and what they have played. -/
structure Orchestra (names : List String) (music : List (Nat × Int × Rat × Rat)) (s : Score) : Prop where
  inv : EnoughInv (fun m => m.length ≤ 15) s
  nothing : NothingGlobal s
  mode : s.chordMode = false
  aliases : s.aliases = []
  names : (partView s).map (·.2) = names
  known : ∀ e ∈ s.events, e.part < s.next
  music : (s.events.map (heardAs s)).Perm music

theorem heard_stable {s t : Score} {es : List NoteEvent} (hk : ∀ e ∈ es, e.part < s.next) (h : ∀ i < s.next, (t.heap i).instr = (s.heap i).instr) :
    es.map (heardAs t) = es.map (heardAs s) := by
  refine List.map_congr_left (fun e he => ?_)
  unfold heardAs
  rw [h _ (hk e he)]

theorem melodic_length (s : Score) : (Spec.melodic s).length ≤ (partView s).length := by
  unfold Spec.melodic
  refine Nat.le_trans (List.length_filter_le _ _) ?_
  simp [instances, partView]

theorem fifths_zero : KeySig.empty = keySigFromFifths 0 := by funext l; cases l <;> rfl

theorem declareParts_rest (parts : List Nat) (s : Score) : (declareParts parts "" s).events = s.events ∧ (declareParts parts "" s).globals = s.globals ∧
    (declareParts parts "" s).chordMode = s.chordMode ∧ (declareParts parts "" s).next = s.next ∧ (declareParts parts "" s).vheap = s.vheap ∧
    (declareParts parts "" s).aliases = s.aliases ∧ (declareParts parts "" s).current = parts := by
  unfold declareParts
  simp only [declAliases, if_true]
  rw [markMaster_rest]
  exact ⟨rfl, rfl, rfl, rfl, rfl, rfl, trivial⟩

/-- A part with an instrument that is new. -/
theorem Orchestra.declare {names : List String} {music : List (Nat × Int × Rat × Rat)} {s : Score} (h : Orchestra names music s) {n : String} {i : Instrument}
    (hn : stockInstrument n = some i) (hp : i.percussion = false) (hi : i.name ∉ names) (hl : names.length < 15) :
    ∃ t o, updWith derefUpd (.partDecl [n] "") s = .ok t ∧ Ensemble (keySigFromFifths 0) 0 o 0 [] t ∧ Orchestra (names ++ [i.name]) music t ∧ (t.heap o).instr = i ∧ o < t.next := by
  have w := h.inv.good.wf
  have hv := voiceEndUpd_view s w
  have hk := voiceEndUpd_keeps s
  have hok := voiceEndUpd_ok s
  have hinv := h.inv.extend [.partDecl [n] ""] (by simp [AllLeavesL, AllLeaves])
  have hsteps := update_steps (L := NoChannelLeaf) (D := True) [.partDecl [n] ""] s (by simp [AllLeavesL, AllLeaves]) (.inl trivial) h.inv.good
  have eu : update [.partDecl [n] ""] s = partDeclUpd [n] "" s := upd_partDecl ..
  rw [eu] at hinv hsteps
  have hst := hsteps.stable w
  have e0 : updWith derefUpd (.partDecl [n] "") s = partDeclUpd [n] "" s := by simp only [updWith]
  rw [e0]
  unfold partDeclUpd at hinv hst ⊢
  generalize voiceEndUpd s = vo at *
  obtain ⟨err, v⟩ := vo
  simp only at hok hk hv
  subst hok
  simp only [Out.andThen] at hinv hst ⊢
  have ha : v.aliases = [] := by
    have := hv.1.2
    rw [show aliasView s = [] by unfold aliasView; rw [h.aliases]; rfl] at this
    exact List.map_eq_nil_iff.1 this
  have hs : stockOrNA n = i.name := by simp [stockOrNA, stockInstrumentName, hn]
  have hun : v.unnamedParts n = [] := by
    unfold Score.unnamedParts
    rw [List.filter_eq_nil_iff]
    intro id hid
    have : (v.heap id).instr.name ∈ (partView v).map (·.2) := by
      unfold partView; rw [List.map_map]; exact List.mem_map.2 ⟨id, hid, rfl⟩
    rw [hv.1.1, h.names] at this
    rw [hs]
    simp only [Bool.and_eq_true, beq_iff_eq, not_and]
    intro _ e
    exact hi (e ▸ this)
  have hd : determineParts [n] "" v = onlyNewPart n v := by
    unfold determineParts determineSingle
    simp [Score.namedParts, ha, hun, Score.aliasedStockInstruments]
  rw [hd] at hinv hst ⊢
  have hnp : ∃ p : Part, Alda.newPart n v = some (v.next, { v with heap := fun j => if j = v.next then p else v.heap j, next := v.next + 1, vheap := fun j => if j = v.vnext then [] else v.vheap j, vnext := v.vnext + 1 }) ∧
      Blank (keySigFromFifths 0) 0 v.next 0 p ∧ p.voices = v.vnext ∧ p.template = none ∧ p.instr = i := by
    unfold Alda.newPart
    rw [hn]
    exact ⟨_, rfl, ⟨⟨fifths_zero, rfl, rfl, rfl, rfl, hp⟩, ⟨0, rfl⟩, rfl, rfl⟩, rfl, rfl, rfl⟩
  obtain ⟨p, p1, p2, p3, p4, p5⟩ := hnp
  unfold onlyNewPart at hinv hst ⊢
  rw [p1] at hinv hst ⊢
  simp only at hinv hst ⊢
  rw [if_neg (by simp)] at hinv hst ⊢
  simp only [Out.ok] at hinv hst ⊢
  have hnin : v.next ∉ v.parts := fun hh => absurd (hv.2.parts_lt _ hh) (by omega)
  generalize hu : ({ v with heap := fun j => if j = v.next then p else v.heap j, next := v.next + 1, vheap := fun j => if j = v.vnext then [] else v.vheap j, vnext := v.vnext + 1 } : Score) = u at *
  have u1 : u.heap v.next = p := by rw [← hu]; simp
  have u2 : ∀ j, j ≠ v.next → u.heap j = v.heap j := by intro j hj; rw [← hu]; simp [hj]
  have hcell : ∃ m, (declareParts [v.next] "" u).heap v.next = { p with tempoMaster := m } := by
    rw [declareParts_heap]
    rcases markMaster_heap [v.next] u v.next with e | ⟨_, _, e⟩
    · exact ⟨p.tempoMaster, by rw [e, u1]⟩
    · exact ⟨true, by rw [e, u1]⟩
  obtain ⟨m, hm⟩ := hcell
  have hview : partView (declareParts [v.next] "" u) = partView s ++ [(v.next, i.name)] := by
    have e1 : (declareParts [v.next] "" u).parts = v.parts ++ [v.next] := by
      rw [declareParts_parts, show u.parts = v.parts by rw [← hu]]
      simp [dedup, hnin]
    rw [← hv.1.1]
    unfold partView
    rw [e1, List.map_append, List.map_cons, List.map_nil, hm]
    simp only
    rw [p2.origin, p5]
    congr 1
    refine List.map_congr_left (fun j hj => ?_)
    have hj' : j ≠ v.next := fun e => hnin (e ▸ hj)
    rw [declareParts_heap]
    rcases markMaster_heap [v.next] u j with e | ⟨_, e, _⟩
    · rw [e, u2 j hj']
    · simp at e; exact absurd e.symm hj'
  have hfew : FewInv (declareParts [v.next] "" u) := by
    refine ⟨hinv, Nat.le_trans (melodic_length _) ?_⟩
    rw [hview, List.length_append, List.length_singleton, ← List.length_map (f := (·.2)), h.names]
    omega
  obtain ⟨r1, r2, r3, r4, r5, r6, r7⟩ := declareParts_rest [v.next] u
  generalize declareParts [v.next] "" u = t at *
  have q1 : t.events = s.events := by rw [r1, ← hk.1, ← hu]
  have q2 : t.globals = s.globals := by rw [r2, ← hk.2.1, ← hu]
  have q3 : t.chordMode = false := by rw [r3, ← h.mode, ← hk.2.2, ← hu]
  have q4 : t.next = v.next + 1 := by rw [r4, ← hu]
  have hng : NothingGlobal t := by have := h.nothing; unfold NothingGlobal at *; rw [q2]; exact this
  refine ⟨t, v.next, rfl, ⟨hfew, hng, q3, v.next, r7, ?_, ?_, .inl ⟨rfl, ?_, ?_⟩⟩, ⟨hinv, hng, q3, ?_, ?_, ?_, ?_⟩, ?_, by omega⟩
  · rw [hm]; exact p2.origin
  · rw [hm, r5, ← hu]; simp [p3]
  · rw [hm]; exact p4
  · rw [hm]; exact ⟨⟨p2.1.1, p2.1.2, p2.1.3, p2.1.4, p2.1.5, p2.1.6⟩, p2.2, p2.3, p2.4⟩
  · rw [r6, ← ha, ← hu]
  · rw [hview, List.map_append, h.names]; rfl
  · intro e he; rw [q1] at he; exact Nat.lt_of_lt_of_le (h.known e he) hst.2.1
  · rw [q1, heard_stable h.known (fun j hj => (hst.2.2 j hj).2)]; exact h.music
  · rw [hm]; exact p5

/-- The music of a part is added. -/
theorem Orchestra.sung {names : List String} {music : List (Nat × Int × Rat × Rat)} {s t : Score} (h : Orchestra names music s) {new : List (Nat × Int × Rat × Rat)} (hs : Sung s t new)
    {o : Nat} {i : Instrument} (ho : o < s.next) (hi : (s.heap o).instr = i) {l : List (Int × Rat × Rat)} (hn : new.Perm (l.map (fun x => (o, x)))) :
    Orchestra names (music ++ l.map (fun x => (i.patch, x))) t where
  inv := hs.few.inv
  nothing := hs.nothing
  mode := hs.mode
  aliases := by
    have := hs.view.2
    rw [show aliasView s = [] by unfold aliasView; rw [h.aliases]; rfl] at this
    exact List.map_eq_nil_iff.1 this
  names := by rw [hs.view.1]; exact h.names
  known := by
    intro e he
    have : noteView e ∈ s.events.map noteView ++ new := by rw [← hs.events]; exact List.mem_map_of_mem he
    rcases List.mem_append.1 this with hh | hh
    · obtain ⟨e', he', x⟩ := List.mem_map.1 hh
      have : e'.part = e.part := congrArg (·.1) x
      rw [← this]
      exact Nat.lt_of_lt_of_le (h.known e' he') hs.next
    · obtain ⟨y, _, x⟩ := List.mem_map.1 (hn.mem_iff.1 hh)
      have : o = e.part := congrArg (·.1) x
      rw [← this]
      exact Nat.lt_of_lt_of_le ho hs.next
  music := by
    have hf : ∀ u : Score, heardAs u = (fun v : Nat × Int × Rat × Rat => ((u.heap v.1).instr.patch, v.2)) ∘ noteView := fun u => rfl
    rw [hf, ← List.map_map, hs.events, List.map_append, List.map_map, ← hf, heard_stable h.known (fun j hj => (hs.stable j hj).2)]
    refine h.music.append ((hn.map _).trans ?_)
    rw [List.map_map]
    have : ((fun v : Nat × Int × Rat × Rat => ((t.heap v.1).instr.patch, v.2)) ∘ fun x => (o, x)) = fun x : Int × Rat × Rat => (i.patch, x) := by
      funext x
      simp only [Function.comp]
      rw [(hs.stable o ho).2, hi]
    rw [this]

end Importer
end Alda
