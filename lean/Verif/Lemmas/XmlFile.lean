import Verif.Lemmas.XmlScore
/-!
A whole MusicXML file: the list of the parts, the parts, and the generated updates.
-/
namespace Alda
namespace Importer
open Spec Syn

/-! ### Lists -/

theorem assign_new {α β : Type} [DecidableEq α] {k : α} {b : β} : ∀ {l : List (α × β)}, k ∉ l.map (·.1) → assign k b l = l ++ [(k, b)]
  | [], _ => rfl
  | (j, a) :: l, h => by
    simp only [List.map_cons, List.mem_cons, not_or] at h
    rw [assign, if_neg (fun e => h.1 e.symm), assign_new h.2, List.cons_append]

theorem assign_keys {α β : Type} [DecidableEq α] {k : α} {b : β} : ∀ {l : List (α × β)}, k ∈ l.map (·.1) → (assign k b l).map (·.1) = l.map (·.1)
  | [], h => by simp at h
  | (j, a) :: l, h => by
    rw [assign]
    by_cases e : j = k
    · rw [if_pos e, List.map_cons, List.map_cons, e]
    · rw [if_neg e, List.map_cons, List.map_cons]
      simp only [List.map_cons, List.mem_cons] at h
      rw [assign_keys (h.resolve_left (fun x => e x.symm))]

theorem mem_lookup {α β : Type} [BEq α] [LawfulBEq α] {k : α} {b : β} : ∀ {l : List (α × β)}, l.lookup k = some b → k ∈ l.map (·.1)
  | [], h => by simp at h
  | (j, a) :: l, h => by
    rw [List.lookup_cons] at h
    by_cases e : k = j
    · simp [e]
    · rw [beq_eq_false_iff_ne.2 e] at h
      rw [List.map_cons]
      exact List.mem_cons_of_mem _ (mem_lookup h)

theorem perm_map {α β : Type} (f : α → β) {l l' : List β} (h : l.Perm l') : ∀ m : List α, l' = m.map f → ∃ m' : List α, m'.Perm m ∧ l = m'.map f := by
  induction h with
  | nil => intro m hm; exact ⟨m, .refl _, hm⟩
  | cons x _ ih =>
    intro m hm
    cases m with
    | nil => simp at hm
    | cons y m =>
      simp only [List.map_cons, List.cons.injEq] at hm
      obtain ⟨m', h1, h2⟩ := ih m hm.2
      exact ⟨y :: m', h1.cons y, by rw [List.map_cons, ← h2, hm.1]⟩
  | swap x y l =>
    intro m hm
    match m, hm with
    | a :: b :: m, hm =>
      simp only [List.map_cons, List.cons.injEq] at hm
      exact ⟨b :: a :: m, .swap a b m, by simp [hm.1, hm.2.1, hm.2.2]⟩
  | trans _ _ ih1 ih2 =>
    intro m hm
    obtain ⟨m1, a1, a2⟩ := ih2 m hm
    obtain ⟨m2, b1, b2⟩ := ih1 m1 a2
    exact ⟨m2, b1.trans a1, b2⟩

theorem insertId_perm (a : String) : ∀ l : List String, (insertId a l).Perm (a :: l)
  | [] => .refl _
  | b :: bs => by
    rw [insertId]
    split
    · exact .refl _
    · exact ((insertId_perm a bs).cons b).trans (.swap a b bs)

theorem sortIds_perm (l : List String) : (sortIds l).Perm l := by
  unfold sortIds
  induction l with
  | nil => exact .refl _
  | cons a l ih => exact (insertId_perm a _).trans (ih.cons a)

/-! ### Instruments -/

/-- The instrument of a General MIDI program. -/
def nameAt (k : Nat) : String := (instrumentsList[k - 1]?).getD ""

/-- The name stands for the instrument of a General MIDI program. -/
def Chair (n : String) (k : Nat) : Prop := 1 ≤ k ∧ k ≤ 128 ∧ stockInstrument n = some ⟨nameAt k, k - 1, false⟩ ∧ NameText n

/-- The name can be written. -/
def writable (n : String) : Bool :=
  match n.toList with
  | a :: b :: cs => letters.contains a && letters.contains b && cs.all (fun c => letters.contains c || digits.contains c || "_-+'().".toList.contains c)
  | _ => false

theorem writable_name {n : String} (h : writable n = true) : NameText n := by
  unfold writable at h
  split at h
  · rename_i a b cs e
    simp only [Bool.and_eq_true, List.contains_iff_mem, List.all_eq_true, Bool.or_eq_true, or_assoc] at h
    exact ⟨a, b, cs, e, h.1.1, h.1.2, h.2⟩
  · cases h

theorem names_table : ∀ k < 128, writable ((instrumentsList[k]?).getD "") = true := by decide +kernel

theorem instruments_table : ∀ k < 128, (instrumentsList[k]?).bind stockInstrument = some ⟨(instrumentsList[k]?).getD "", k, false⟩ := by decide +kernel

theorem piano_chair : Chair "piano" 1 := ⟨by decide, by decide, by decide +kernel, writable_name (by decide +kernel)⟩

theorem chair_list {k : Nat} (h1 : 1 ≤ k) (h2 : k ≤ 128) : instrumentsList[k - 1]? = some (nameAt k) ∧ Chair (nameAt k) k := by
  have h := instruments_table (k - 1) (by omega)
  cases hx : instrumentsList[k - 1]? with
  | none => rw [hx] at h; simp at h
  | some n =>
    have hn : nameAt k = n := by unfold nameAt; rw [hx]; rfl
    rw [hx] at h
    refine ⟨by rw [hn], h1, h2, ?_, ?_⟩
    · rw [hn]
      exact h
    · exact writable_name (names_table (k - 1) (by omega))

theorem Chair.unique {n : String} {k k' : Nat} (h : Chair n k) (h' : Chair n k') : k = k' := by
  have := h.2.2.1.symm.trans h'.2.2.1
  simp only [Option.some.injEq, Instrument.mk.injEq] at this
  have := this.2.1
  have a := h.1
  have b := h'.1
  omega

theorem nameAt_inj {k k' : Nat} (h1 : 1 ≤ k) (h2 : k ≤ 128) (h1' : 1 ≤ k') (h2' : k' ≤ 128) (h : nameAt k = nameAt k') : k = k' :=
  (chair_list h1 h2).2.unique (h ▸ (chair_list h1' h2').2)

/-! ### The list of the parts -/

mutual
theorem handle_aside (o : Orders) : ∀ (e : Elem) (s : Imp), Aside e → handle o e s = .ok s
  | .mk tag attrs text children, s, h => by
    simp only [Aside] at h
    rw [handle_other o (e := .mk tag attrs text children) h.1]
    exact handleAll_aside o children s h.2
theorem handleAll_aside (o : Orders) : ∀ (es : List Elem) (s : Imp), AsideL es → handleAll o es s = .ok s
  | [], s, _ => handleAll_nil o s
  | e :: es, s, h => by
    simp only [AsideL] at h
    rw [handleAll_cons, handle_aside o e s h.1]
    exact handleAll_aside o es s h.2
end

theorem handleAll_append (o : Orders) : ∀ (es fs : List Elem) (s : Imp), handleAll o (es ++ fs) s = (handleAll o es s >>= handleAll o fs)
  | [], fs, s => by rw [handleAll_nil]; rfl
  | e :: es, fs, s => by
    rw [List.cons_append, handleAll_cons, handleAll_cons]
    cases handle o e s with
    | error x => rfl
    | ok s' => exact handleAll_append o es fs s'

/-- A part that has been described. -/
def Described (s : Imp) (d : String × Nat) : Prop := ∃ p n, s.parts.lookup d.1 = some p ∧ Declared p ∧ p.instruments = [n] ∧ p.alias = "" ∧ Chair n d.2

/-- The parts that have been described. -/
structure Listed (ds : List (String × Nat)) (s : Imp) : Prop where
  keys : s.parts.map (·.1) = ds.map (·.1)
  parts : ∀ d ∈ ds, Described s d

theorem separateAliases_none (id : String) {p : XPart} {ps : List (String × XPart)} (hp : ps.lookup id = some p) (h : ∀ k v, k ≠ id → ps.lookup k = some v → v.instruments ≠ p.instruments) :
    ∀ ks : List String, separateAliases id ks ps = ps
  | [] => rfl
  | k :: ks => by
    unfold separateAliases
    rw [hp]
    cases hk : ps.lookup k with
    | none => exact separateAliases_none id hp h ks
    | some v =>
      simp only
      rw [if_neg (fun hh => h k v hh.1 hk hh.2.1)]
      exact separateAliases_none id hp h ks

theorem describePart_ok {e : Elem} {id : String} {k : Nat} (h : ScorePartOf e id k) : ∃ p n, describePart e = .ok p ∧ Declared p ∧ p.instruments = [n] ∧ p.alias = "" ∧ Chair n k := by
  unfold describePart
  rcases h.instrument with ⟨h1, rfl⟩ | ⟨m, h1, h2, ⟨c, h3, h3'⟩, h4, h5⟩
  · simp only [h1, if_true]
    exact ⟨_, "piano", rfl, ⟨rfl, rfl, rfl, rfl, rfl⟩, rfl, rfl, piano_chair⟩
  · have h6 : e.findAll2 "midi-instrument" "midi-unpitched" = [] := by unfold Elem.findAll2; rw [h1]; simp [h2]
    have h7 : instrumentAt (parseInt 8 c.text) = .ok (nameAt k) := by
      rw [parseInt_numeral (bits := 8) h3' (by simpa using by omega)]
      unfold instrumentAt
      rw [if_neg (by omega), show ((k : Int) - 1).toNat = k - 1 by omega, (chair_list h4 (by omega)).1]
      rfl
    simp only [h1, h6]
    rw [if_neg (by simp), if_neg (by simp)]
    simp only [List.mapM_cons, List.mapM_nil, h3, need, bind, Except.bind, h7, pure, Except.pure]
    exact ⟨_, nameAt k, rfl, ⟨rfl, rfl, rfl, rfl, rfl⟩, rfl, rfl, (chair_list h4 (by omega)).2⟩

theorem lookup_append_new {β : Type} {k j : String} {b : β} {l : List (String × β)} (h : j ≠ k) : (l ++ [(k, b)]).lookup j = l.lookup j := by
  induction l with
  | nil => simp [List.lookup_cons, beq_eq_false_iff_ne.2 h]
  | cons x l ih =>
    obtain ⟨a, c⟩ := x
    rw [List.cons_append, List.lookup_cons, List.lookup_cons, ih]

theorem scorePart_ok (o : Orders) {e : Elem} {id : String} {k : Nat} (h : ScorePartOf e id k) {ds : List (String × Nat)} {s : Imp} (hl : Listed ds s) (h1 : id ∉ ds.map (·.1)) (h2 : k ∉ ds.map (·.2)) :
    ∃ s', handle o e s = .ok s' ∧ Listed (ds ++ [(id, k)]) s' := by
  obtain ⟨p, n, a1, a2, a3, a4, a5⟩ := describePart_ok h
  have eh : handle o e s = scorePart o e s := by
    have ht := h.tag
    obtain ⟨tag, attrs, text, children⟩ := e
    simp only [Elem.tag] at ht; subst ht
    unfold handle
    simp
  have hk : id ∉ s.parts.map (·.1) := by rw [hl.keys]; exact h1
  have hself : (assign id p s.parts).lookup id = some p := lookup_assign_self ..
  have hsep : ∀ ks, separateAliases id ks (assign id p s.parts) = assign id p s.parts := by
    refine separateAliases_none id hself ?_
    intro j v hj hv e
    rw [lookup_assign_ne hj] at hv
    have hm := mem_lookup hv
    rw [hl.keys] at hm
    obtain ⟨d, hd, rfl⟩ := List.mem_map.1 hm
    obtain ⟨q, n', b1, _, b3, _, b5⟩ := hl.parts d hd
    rw [hv] at b1
    simp only [Option.some.injEq] at b1
    subst b1
    rw [b3, a3] at e
    simp only [List.cons.injEq, and_true] at e
    subst e
    exact h2 (a5.unique b5 ▸ List.mem_map_of_mem hd)
  rw [eh]
  unfold scorePart
  rw [h.id, a1]
  simp only [need, bind, Except.bind, pure, Except.pure]
  rw [hsep]
  refine ⟨_, rfl, ?_, ?_⟩
  · simp only
    rw [assign_new hk, List.map_append, List.map_append, hl.keys]
    rfl
  · intro d hd
    rcases List.mem_append.1 hd with hd | hd
    · obtain ⟨q, n', b1, b2, b3, b4, b5⟩ := hl.parts d hd
      have hne : d.1 ≠ id := fun e => h1 (e ▸ List.mem_map_of_mem hd)
      exact ⟨q, n', by simp only; rw [lookup_assign_ne hne]; exact b1, b2, b3, b4, b5⟩
    · simp only [List.mem_singleton] at hd
      subst hd
      exact ⟨p, n, hself, a2, a3, a4, a5⟩

theorem partList_ok (o : Orders) {es : List Elem} {l : List (String × Nat)} (h : PartListOf es l) : ∀ {ds : List (String × Nat)} {s : Imp}, Listed ds s → ((ds ++ l).map (·.1)).Nodup →
    ((ds ++ l).map (·.2)).Nodup → ∃ s', handleAll o es s = .ok s' ∧ Listed (ds ++ l) s' := by
  induction h with
  | nil => intro ds s hl _ _; exact ⟨s, handleAll_nil o s, by rw [List.append_nil]; exact hl⟩
  | aside he _ ih =>
    intro ds s hl h1 h2
    obtain ⟨s', a1, a2⟩ := ih hl h1 h2
    exact ⟨s', by rw [handleAll_cons, handle_aside o _ s he]; exact a1, a2⟩
  | @part e es l id k he _ ih =>
    intro ds s hl h1 h2
    have not : ∀ {α : Type} {a : α} {xs ys : List α}, (xs ++ a :: ys).Nodup → a ∉ xs := by
      intro α a xs ys hn hm
      rw [List.nodup_append] at hn
      exact hn.2.2 a hm a (List.mem_cons_self ..) rfl
    rw [List.map_append, List.map_cons] at h1 h2
    obtain ⟨s1, a1, a2⟩ := scorePart_ok o he hl (not h1) (not h2)
    obtain ⟨s', b1, b2⟩ := ih a2 (by simpa using h1) (by simpa using h2)
    exact ⟨s', by rw [handleAll_cons, a1]; exact b1, by simpa using b2⟩

/-! ### The parts -/

/-- A part that has been read. -/
def ReadAll (s : Imp) (q : XmlPlayer) : Prop :=
  ∃ p n V, s.parts.lookup q.id = some p ∧ p.instruments = [n] ∧ p.alias = "" ∧ Chair n q.program ∧ Finished V q.head (xmlNotes q.measures) p

theorem parts_ok (o : Orders) (fair : o.Fair) {es : List Elem} {qs : List XmlPlayer} (h : PartsOf es qs) : ∀ {s : Imp}, (∀ q ∈ qs, Described s (q.id, q.program)) → (qs.map (·.id)).Nodup →
    ∃ s', handleAll o es s = .ok s' ∧ s'.parts.map (·.1) = s.parts.map (·.1) ∧ (∀ q ∈ qs, ReadAll s' q) ∧ ∀ id, id ∉ qs.map (·.id) → s'.parts.lookup id = s.parts.lookup id := by
  induction h with
  | nil => intro s _ _; exact ⟨s, handleAll_nil o s, rfl, by simp, fun _ _ => rfl⟩
  | @part e es q qs hid he _ ih =>
    intro s hd hn
    rw [List.map_cons, List.nodup_cons] at hn
    obtain ⟨p, n, b1, b2, b3, b4, b5⟩ := hd q (List.mem_cons_self ..)
    obtain ⟨s1, p', V, a1, a2, a3, a4⟩ := part_ok o fair he hid b1 b2
    have other : ∀ j, j ≠ q.id → s1.parts.lookup j = s.parts.lookup j := fun j hj => by rw [a2, lookup_assign_ne hj]
    have hd1 : ∀ r ∈ qs, Described s1 (r.id, r.program) := by
      intro r hr
      obtain ⟨p2, n2, c1, c2⟩ := hd r (List.mem_cons_of_mem _ hr)
      exact ⟨p2, n2, by rw [other]; exact c1; exact fun e => hn.1 (e ▸ List.mem_map_of_mem hr), c2⟩
    obtain ⟨s', d1, d2, d3, d4⟩ := ih hd1 hn.2
    refine ⟨s', by rw [handleAll_cons, a1]; exact d1, ?_, ?_, ?_⟩
    · rw [d2, a2, assign_keys (mem_lookup b1)]
    · intro r hr
      rcases List.mem_cons.1 hr with rfl | hr
      · exact ⟨p', n, V, by rw [d4 _ hn.1, a2]; exact lookup_assign_self .., a3.instruments.trans b3, a3.alias.trans b4, b5, a4⟩
      · exact d3 r hr
    · intro j hj
      rw [List.map_cons, List.mem_cons, not_or] at hj
      rw [d4 j hj.2, other j hj.1]

/-! ### The updates -/

/-- The updates with or without the barlines moved. -/
def Tidied (b : Bool) (us vs : List Upd) : Prop := (b = false → vs = us) ∧ (b = true → BarsMoved us vs ∧ ((∀ u ∈ us, FiniteLengths u) → ∀ before, PrintableL false false before → PrintableScore (before ++ vs)))

theorem generate_plays (b : Bool) {s : Imp} : ∀ (qs done : List XmlPlayer) (music : List (Nat × Int × Rat × Rat)) (sc : Score), (∀ q ∈ qs, ReadAll s q) → (∀ q ∈ qs, q.Playable) →
    ((done ++ qs).map (·.program)).Nodup → (∀ q ∈ done, 1 ≤ q.program ∧ q.program ≤ 128) → done.length + qs.length ≤ 15 → Orchestra (done.map (fun q => nameAt q.program)) music sc →
    ∃ us vs t, generateAll s.parts (qs.map (·.id)) = .ok us ∧ Tidied b us vs ∧ update vs sc = .ok t ∧ Orchestra ((done ++ qs).map (fun q => nameAt q.program)) (music ++ qs.flatMap XmlPlayer.music) t
  | [], done, music, sc, _, _, _, _, _, h => ⟨[], [], sc, rfl, ⟨fun _ => rfl, fun _ => ⟨.nil, fun _ us h => by rw [List.append_nil]; exact .events us h⟩⟩, rfl, by simpa using h⟩
  | q :: qs, done, music, sc, hr, hp, hn, hd, hl, h => by
    obtain ⟨p, n, V, a1, a2, a3, a4, a5⟩ := hr q (List.mem_cons_self ..)
    obtain ⟨us, b1, b3, b4, b2⟩ := a5.plays (hp q (List.mem_cons_self ..))
    have hnew : nameAt q.program ∉ done.map (fun q => nameAt q.program) := by
      intro hm
      obtain ⟨r, hr, e⟩ := List.mem_map.1 hm
      have := nameAt_inj (hd r hr).1 (hd r hr).2 a4.1 a4.2.1 e
      rw [List.map_append, List.map_cons, List.nodup_append] at hn
      exact hn.2.2 _ (List.mem_map_of_mem hr) q.program (List.mem_cons_self ..) this
    simp only [List.length_cons] at hl
    obtain ⟨t1, ob, c1, c2, c3, c4, c5⟩ := h.declare a4.2.2.1 rfl hnew (by rw [List.length_map]; omega)
    obtain ⟨t2, new, d1, d2, d3⟩ := b2 b c2
    have d3' : new.Perm (((xmlNotes q.measures).map (fun x => (expected ob q.head x).2)).map (fun x => (ob, x))) := by
      rw [List.map_map]; exact d3
    have d4 := c3.sung d2 c5 c4 d3'
    have e1 : ((xmlNotes q.measures).map (fun x => (expected ob q.head x).2)).map (fun x => (q.program - 1, x)) = q.music := by
      rw [List.map_map]; rfl
    simp only at d4
    rw [e1] at d4
    obtain ⟨vs, ws, t3, f1, f4, f2, f3⟩ := generate_plays b qs (done ++ [q]) (music ++ q.music) t2 (fun r hr' => hr r (List.mem_cons_of_mem _ hr')) (fun r hr' => hp r (List.mem_cons_of_mem _ hr')) (by simpa using hn)
      (fun r hr' => by
        rcases List.mem_append.1 hr' with hr' | hr'
        · exact hd r hr'
        · simp only [List.mem_singleton] at hr'; subst hr'; exact ⟨a4.1, a4.2.1⟩) (by simp only [List.length_append, List.length_singleton]; omega) (by rw [List.map_append]; exact d4)
    refine ⟨(.partDecl p.instruments p.alias :: us) ++ vs, (.partDecl p.instruments p.alias :: tidy b us) ++ ws, t3, ?_, ⟨?_, ?_⟩, ?_, by simpa using f3⟩
    · rw [List.map_cons]
      unfold generateAll
      simp only [a1, f1, need, bind, Except.bind, b1, pure, Except.pure]
    · intro hb
      rw [f4.1 hb]
      subst hb
      rfl
    · intro hb
      obtain ⟨f5, f6⟩ := f4.2 hb
      subst hb
      refine ⟨.part _ _ us b3 f5, fun hf before hbef => ?_⟩
      rw [List.cons_append]
      have h1 := b4 (fun u hu => hf u (List.mem_append_left _ (List.mem_cons_of_mem _ hu)))
      have h2 := f6 (fun u hu => hf u (List.mem_append_right _ hu))
      refine PrintableScore.part before _ _ _ hbef (by rw [a2]; simp) (by rw [a2]; intro x hx; rw [List.mem_singleton.1 hx]; exact a4.2.2.2) (by rw [a3]; simp) (h2 _ h1)
    · rw [List.cons_append, a2, a3, update_ok_cons c1, update_ok_append d1]
      exact f2

/-- A whole file. -/
theorem import_plays (b : Bool) (o : Orders) (fair : o.Fair) {roots : List Elem} {root : Elem} (hroot : roots.find? (fun e => e.tag = "score-partwise") = some root) {players : List XmlPlayer}
    (h : ScoreOf root players) (few : players.length ≤ 15) (hp : ∀ q ∈ players, q.Playable) :
    ∃ us vs t, importMusicXML o roots = .ok us ∧ Tidied b us vs ∧ update vs newScore = .ok t ∧ (t.events.map (heardAs t)).Perm (players.flatMap XmlPlayer.music) := by
  obtain ⟨front, list, parts, declared, h1, h2, h3, h4, h5, h6⟩ := h.content
  have e1 : declared.map (·.1) |>.Perm (players.map (·.id)) := by have := h5.map (·.1); rwa [List.map_map] at this
  have e2 : declared.map (·.2) |>.Perm (players.map (·.program)) := by have := h5.map (·.2); rwa [List.map_map] at this
  obtain ⟨s1, a1, a2⟩ := partList_ok o h4 (ds := []) (s := newImporter) ⟨rfl, by simp⟩ (e1.nodup_iff.2 h.ids) (e2.nodup_iff.2 h.programs)
  obtain ⟨s2, b1, b2, b3, _⟩ := parts_ok o fair h6 (s := s1) (fun q hq => a2.parts (q.id, q.program) (h5.mem_iff.2 (List.mem_map.2 ⟨q, hq, rfl⟩))) h.ids
  have hh : handle o root newImporter = .ok s2 := by
    rw [handle_other o (by rw [h.tag]; decide), h1, handleAll_append, handleAll_aside o front _ h2]
    show handleAll o (list :: parts) newImporter = _
    rw [handleAll_cons, handle_other o (by rw [h3]; decide), a1]
    exact b1
  have hkeys : (sortIds (s2.parts.map (·.1))).Perm (players.map (·.id)) := by
    refine (sortIds_perm _).trans ?_
    rw [b2, a2.keys]
    exact e1
  obtain ⟨qs, q1, q2⟩ := perm_map (·.id) hkeys players rfl
  obtain ⟨us, vs, t, c1, c4, c2, c3⟩ := generate_plays b (s := s2) qs [] [] newScore (fun q hq => b3 q (q1.mem_iff.1 hq)) (fun q hq => hp q (q1.mem_iff.1 hq))
    ((q1.map (·.program)).nodup_iff.2 h.programs) (by simp) (by simp only [List.length_nil]; rw [q1.length_eq]; omega)
    ⟨newScore_enough, rfl, rfl, rfl, rfl, by simp [newScore], by simp [newScore]⟩
  refine ⟨us, vs, t, ?_, c4, c2, c3.music.trans ?_⟩
  · unfold importMusicXML
    rw [hroot]
    simp only [bind, Except.bind, hh]
    unfold Imp.generate
    rw [q2]
    exact c1
  · rw [List.nil_append]
    exact q1.flatMap_right _

end Importer
end Alda
