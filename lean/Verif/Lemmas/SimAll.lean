import Verif.Lemmas.SimVoices
import Verif.Spec.Music
/-!
The interpreter does to every active instrument what `Track.list` does to its track.
-/
namespace Alda

open Spec

mutual
theorem Tame.mono {mo : Mode} {a b : Bool} (h : a = true → b = true) : ∀ (e : Upd), Tame mo a e → Tame mo b e
  | .leaf _, _ | .lisp _, _ | .lispNil, _ | .barline, _ | .marker _, _ | .atMarker _, _ => by simp [Tame]
  | .chord _, k | .cram _ _, k => by simpa only [Tame] using k
  | .seq es, k => by simp only [Tame] at k ⊢; exact TameL.mono h es k
  | .rep e _, k => by simp only [Tame] at k ⊢; exact Tame.mono h e k
  | .onReps _ e, k => by simp only [Tame] at k ⊢; exact ⟨k.1, Tame.mono h e k.2⟩
  | .voice _, k | .voiceEnd, k => by simp only [Tame] at k ⊢; exact h k
  | .varDef _ _, k => by simpa only [Tame] using k
  | .varRef _, k => by simp only [Tame] at k ⊢; exact ⟨k.1, fun v => h (k.2 v)⟩
  | .partDecl _ _, k => by simp only [Tame] at k
theorem TameL.mono {mo : Mode} {a b : Bool} (h : a = true → b = true) : ∀ (es : List Upd), TameL mo a es → TameL mo b es
  | [], _ => by simp only [TameL]
  | e :: es, k => by simp only [TameL] at k ⊢; exact ⟨Tame.mono h e k.1, TameL.mono h es k.2⟩
end

mutual
theorem varValue_tame {mo : Mode} (vars : String → Option (List Upd)) (hv : mo.vars = true → ∀ n es, vars n = some es → TameL mo mo.varVoices es) :
    ∀ (vf : Bool) (e v : Upd), Tame mo vf e → varValue vars e = .ok v → Tame mo vf v
  | vf, .leaf _, v, _, h | vf, .lispNil, v, _, h | vf, .barline, v, _, h | vf, .marker _, v, _, h | vf, .atMarker _, v, _, h => by
    simp only [varValue, Except.ok.injEq] at h; subst h; simp [Tame]
  | vf, .lisp _, v, _, h => by
    simp only [varValue] at h
    split at h
    · simp at h
    · simp only [Except.ok.injEq] at h; subst h; simp [Tame]
    · simp only [Except.ok.injEq] at h; subst h; simp [Tame]
  | vf, .chord es, v, k, h => by
    simp only [varValue] at h; simp only [Tame] at k
    split at h
    · simp at h
    · rename_i vs hvs; simp only [Except.ok.injEq] at h; subst h; simp only [Tame]; exact varValues_tame vars hv _ es vs k hvs
  | vf, .cram es _, v, k, h => by
    simp only [varValue] at h; simp only [Tame] at k
    split at h
    · simp at h
    · rename_i vs hvs; simp only [Except.ok.injEq] at h; subst h; simp only [Tame]; exact varValues_tame vars hv _ es vs k hvs
  | vf, .seq es, v, k, h => by
    simp only [varValue] at h; simp only [Tame] at k
    split at h
    · simp at h
    · rename_i vs hvs; simp only [Except.ok.injEq] at h; subst h; simp only [Tame]; exact varValues_tame vars hv _ es vs k hvs
  | vf, .rep e _, v, k, h => by
    simp only [varValue] at h; simp only [Tame] at k
    split at h
    · simp at h
    · rename_i vs hvs; simp only [Except.ok.injEq] at h; subst h; simp only [Tame]; exact varValue_tame vars hv _ e vs k hvs
  | vf, .onReps _ e, v, k, h => by
    simp only [varValue] at h; simp only [Tame] at k
    split at h
    · simp at h
    · rename_i vs hvs; simp only [Except.ok.injEq] at h; subst h; simp only [Tame]; exact ⟨k.1, varValue_tame vars hv _ e vs k.2 hvs⟩
  | vf, .voice _, v, k, h | vf, .voiceEnd, v, k, h => by
    simp only [varValue, Except.ok.injEq] at h; subst h; exact k
  | vf, .varDef _ es, v, k, h => by
    simp only [varValue] at h; simp only [Tame] at k
    split at h
    · simp at h
    · rename_i vs hvs; simp only [Except.ok.injEq] at h; subst h; simp only [Tame]; exact ⟨k.1, varValues_tame vars hv _ es vs k.2 hvs⟩
  | vf, .varRef n, v, k, h => by
    simp only [varValue] at h; simp only [Tame] at k
    split at h
    · simp at h
    · rename_i es hes; simp only [Except.ok.injEq] at h; subst h; simp only [Tame]; exact TameL.mono k.2 es (hv k.1 n es hes)
  | vf, .partDecl _ _, v, k, h => by simp only [Tame] at k
theorem varValues_tame {mo : Mode} (vars : String → Option (List Upd)) (hv : mo.vars = true → ∀ n es, vars n = some es → TameL mo mo.varVoices es) :
    ∀ (vf : Bool) (es vs : List Upd), TameL mo vf es → varValues vars es = .ok vs → TameL mo vf vs
  | vf, [], vs, _, h => by simp only [varValues, Except.ok.injEq] at h; subst h; simp only [TameL]
  | vf, e :: es, vs, k, h => by
    simp only [varValues] at h; simp only [TameL] at k
    split at h
    · simp at h
    · rename_i v hv'
      split at h
      · simp at h
      · rename_i vs' hvs
        simp only [Except.ok.injEq] at h; subst h
        simp only [TameL]
        exact ⟨varValue_tame vars hv vf e v k.1 hv', varValues_tame vars hv vf es vs' k.2 hvs⟩
end

/-- The states it is followed from. -/
structure Ready (mo : Mode) (s : Score) : Prop where
  good : G s
  vars : mo.vars = true → ∀ n es, s.vars n = some es → TameL mo mo.varVoices es
  one : mo.ranges = true → s.current.length ≤ 1

/-- What a successful run does to the active parts. -/
structure Ran (mo : Mode) (vf : Bool) (s s' : Score) (g : Track → Option Track) : Prop where
  ready : Ready mo s'
  cur : vf = false → s'.current = s.current
  len : s'.current.length = s.current.length
  track : ∀ (i id : Nat), s.current[i]? = some id → ∃ id', s'.current[i]? = some id' ∧ g (trackOf s id) = some (trackOf s' id')

theorem Ran.refl {mo : Mode} {vf : Bool} {s : Score} (r : Ready mo s) : Ran mo vf s s some :=
  ⟨r, fun _ => rfl, rfl, fun _ id hi => ⟨id, hi, rfl⟩⟩

theorem Ran.trans {mo : Mode} {vf : Bool} {s t u : Score} {g h : Track → Option Track} (a : Ran mo vf s t g) (b : Ran mo vf t u h) :
    Ran mo vf s u (fun x => (g x).bind h) := by
  refine ⟨b.ready, fun e => (b.cur e).trans (a.cur e), b.len.trans a.len, ?_⟩
  intro i id hi
  obtain ⟨x, hx, ha⟩ := a.track i id hi
  obtain ⟨y, hy, hb⟩ := b.track i x hx
  exact ⟨y, hy, by simp only [ha, Option.bind_some, hb]⟩

theorem Ran.congr {mo : Mode} {vf : Bool} {s t : Score} {g h : Track → Option Track} (a : Ran mo vf s t g)
    (e : ∀ i ∈ s.current, h (trackOf s i) = g (trackOf s i)) : Ran mo vf s t h := by
  refine ⟨a.ready, a.cur, a.len, ?_⟩
  intro i id hi
  obtain ⟨x, hx, ha⟩ := a.track i id hi
  exact ⟨x, hx, by rw [e id (List.mem_of_getElem? hi), ha]⟩

theorem LoopOk.ran {mo : Mode} {vf : Bool} {s t : Score} {g : Track → Option Track} (r : Ready mo s) (l : LoopOk s t s.current (fun _ => g)) :
    Ran mo vf s t g := by
  refine ⟨⟨l.steps.good r.good, by rw [l.vars]; exact r.vars, by rw [l.cur]; exact r.one⟩, fun _ => l.cur, by rw [l.cur], ?_⟩
  intro i id hi
  exact ⟨id, by rw [l.cur]; exact hi, l.done id (List.mem_of_getElem? hi)⟩

/-- Sequencing. -/
theorem Ran.seq {mo : Mode} {vf : Bool} {s : Score} {a : Out} {f : Score → Out} {g h : Track → Option Track}
    (ha : a.err = none → Ran mo vf s a.s g) (hf : ∀ t, Ready mo t → (f t).err = none → Ran mo vf t (f t).s h)
    (he : (a.andThen f).err = none) : Ran mo vf s (a.andThen f).s (fun x => (g x).bind h) := by
  rcases Out.andThen_s a f with ⟨h0, h1, h2⟩ | ⟨e, h0, h1, h2⟩
  · rw [h2] at he; rw [h1]
    have r := ha h0
    exact r.trans (hf _ r.ready he)
  · rw [h2] at he; simp at he

/-! ### Leaves -/

section
variable {mo : Mode} {vf : Bool}

theorem attrUpd_ran (u : PartUpd) (s : Score) (r : Ready mo s) (he : (attrUpd u s).err = none) :
    Ran mo vf s (attrUpd u s).s (Track.attr u) :=
  LoopOk.ran r (forCurrent_local _ (fun _ => Track.attr u) (fun _ => True)
    (fun s id g _ hid h => ⟨attrPart_local u s id g hid h, trivial⟩) s r.good trivial he)

theorem applyGlobals_ran (s : Score) (r : Ready mo s) (he : (applyGlobals s).err = none) :
    Ran mo vf s (applyGlobals s).s Track.applyGlobals :=
  LoopOk.ran r (forCurrent_local _ (fun _ => Track.applyGlobals) (fun _ => True)
    (fun s id g _ hid h => ⟨applyGlobalsPart_local s id g hid h, trivial⟩) s r.good trivial he)

theorem commonOffset_mem {s : Score} {l : List Nat} {o : Rat} (h : commonOffset s l = some o) : ∀ i ∈ l, (s.heap i).offset = o := by
  cases l with
  | nil => simp
  | cons i is =>
    simp only [commonOffset] at h
    split at h
    · rename_i ha
      simp only [Option.some.injEq] at h
      intro j hj
      rcases List.mem_cons.1 hj with rfl | hj
      · exact h
      · have := List.all_eq_true.1 ha j hj
        simp only [beq_iff_eq] at this; rw [this, h]
    · simp at h

theorem globalAttrUpd_ran (u : PartUpd) (s : Score) (r : Ready mo s) (he : (globalAttrUpd u s).err = none) :
    Ran mo vf s (globalAttrUpd u s).s (Track.globalAttr u) := by
  have hst : ∀ o, Step (fun _ => True) False s { s with globals := s.globals.record o u } := fun o => .record o u trivial
  unfold globalAttrUpd at he ⊢
  split
  · rename_i hc
    refine ⟨⟨(hst 0).good r.good, r.vars, r.one⟩, fun _ => rfl, rfl, ?_⟩
    intro i id hi; rw [hc] at hi; simp at hi
  · rename_i j is hc
    simp only [hc] at he
    split
    · rename_i o ho
      refine ⟨⟨(hst o).good r.good, r.vars, r.one⟩, fun _ => rfl, rfl, ?_⟩
      intro i id hi
      refine ⟨id, hi, ?_⟩
      have := commonOffset_mem ho id (by rw [← hc]; exact List.mem_of_getElem? hi)
      unfold Track.globalAttr
      show some ({ trackOf s id with globals := s.globals.record (s.heap id).offset u } : Track) = _
      rw [this]; rfl
    · rename_i ho; rw [ho] at he; simp [Out.fail] at he

theorem beforeNote_ran (d : Dur) (s : Score) (r : Ready mo s) (he : (beforeNote d s).err = none) :
    Ran mo vf s (beforeNote d s).s (Track.beforeNote d) := by
  unfold beforeNote at he ⊢
  refine (Ran.seq (g := fun t => if t.chordMode then some t else Track.applyGlobals t)
    (h := fun t => if d.valid then some t else none) ?_ ?_ he).congr (fun i hi => rfl)
  · intro h
    by_cases hc : s.chordMode = true
    · rw [if_pos hc]
      exact (Ran.refl r).congr (fun i hi => by show (if s.chordMode = true then _ else _) = _; rw [if_pos hc])
    · rw [if_neg hc] at h ⊢
      exact (applyGlobals_ran s r h).congr (fun i hi => by show (if s.chordMode = true then _ else _) = _; rw [if_neg hc])
  · intro t rt h
    by_cases hd : d.valid = true
    · rw [if_pos hd]; exact (Ran.refl rt).congr (fun i hi => by rw [if_pos hd])
    · rw [if_neg hd] at h; simp [Out.fail] at h

theorem noteUpd_ran (p : Pitch) (d : Dur) (sl : Bool) (s : Score) (r : Ready mo s) (he : (noteUpd p d sl s).err = none) :
    Ran mo vf s (noteUpd p d sl s).s (Track.leaf (.note p d sl)) :=
  Ran.seq (beforeNote_ran d s r) (fun t rt h => LoopOk.ran rt (forCurrent_local _ (fun _ => Track.note p d sl) (fun _ => True)
    (fun s id g _ hid h => ⟨notePart_local p d sl s id g hid h, trivial⟩) t rt.good trivial h)) he

theorem restUpd_ran (d : Dur) (s : Score) (r : Ready mo s) (he : (restUpd d s).err = none) :
    Ran mo vf s (restUpd d s).s (Track.leaf (.rest d)) :=
  Ran.seq (beforeNote_ran d s r) (fun t rt h => LoopOk.ran rt (forCurrent_local _ (fun _ => Track.rest d) (fun _ => True)
    (fun s id g _ hid h => ⟨restPart_local d s id g hid h, trivial⟩) t rt.good trivial h)) he

theorem leafUpd_ran (l : Leaf) (s : Score) (r : Ready mo s) (he : (leafUpd l s).err = none) :
    Ran mo vf s (leafUpd l s).s (Track.leaf l) := by
  cases l with
  | note p d sl => exact noteUpd_ran p d sl s r he
  | rest d => exact restUpd_ran d s r he
  | attr u => exact attrUpd_ran u s r he
  | globalAttr u => exact globalAttrUpd_ran u s r he

/-! ### Markers, variables, voices -/

theorem markerUpd_ran (n : String) (s : Score) (r : Ready mo s) (he : (markerUpd n s).err = none) :
    Ran mo vf s (markerUpd n s).s (Track.marker n) := by
  have hst : ∀ o, Step (fun _ => True) False s { s with markers := fun m => if m = n then some o else s.markers m } := fun o => .marker n o
  unfold markerUpd at he ⊢
  split
  · rename_i hc; rw [hc] at he; simp [Out.fail] at he
  · rename_i j is hc
    simp only [hc] at he
    split
    · rename_i ho; rw [ho] at he; simp [Out.fail] at he
    · rename_i o ho
      refine ⟨⟨(hst o).good r.good, r.vars, r.one⟩, fun _ => rfl, rfl, ?_⟩
      intro i id hi
      refine ⟨id, hi, ?_⟩
      have := commonOffset_mem ho id (by rw [← hc]; exact List.mem_of_getElem? hi)
      unfold Track.marker
      show some ({ trackOf s id with markers := fun m => if m = n then some (s.heap id).offset else s.markers m } : Track) = _
      rw [this]; rfl

/-- Changing the timing of all current parts. -/
theorem timing_loop (f : Nat → Part → Part)
    (hf : ∀ i (p : Part), f i p = { p with
      offset := (f i p).offset, lastOffset := (f i p).lastOffset, timeScale := (f i p).timeScale, dur := (f i p).dur,
      repetition := (f i p).repetition })
    (hb : ∀ i p, (f i p).bare = (f i p.bare).bare)
    (s : Score) (good : G s) :
    LoopOk s (forIds (fun id s => .ok (s.modPart id (f id))) s.current s).s s.current (fun i t => some (t.set (f i t.cell))) := by
  have e : ∀ (ids : List Nat) (s : Score), (forIds (fun id s => .ok (s.modPart id (f id))) ids s).err = none := by
    intro ids
    induction ids with
    | nil => intro s; rfl
    | cons i is ih => intro s; simp only [forIds, Out.andThen, Out.ok]; exact ih _
  refine forCurrent_local _ _ (fun _ => True) (fun s id g _ hid _ => ⟨?_, trivial⟩) s good trivial (e _ s)
  refine timing_local s id g hid (f id) (hf id) _ ?_
  show some ((trackOf s id).set (f id (s.heap id).bare)) = _
  unfold Track.set
  rw [hb id (s.heap id)]

theorem atMarkerUpd_ran (n : String) (s : Score) (r : Ready mo s) (he : (atMarkerUpd n s).err = none) :
    Ran mo vf s (atMarkerUpd n s).s (Track.atMarker n) := by
  refine Ran.seq (applyGlobals_ran s r) ?_ he
  intro t rt h
  split at h
  · simp [Out.fail] at h
  · rename_i o ho
    refine (LoopOk.ran rt (timing_loop (fun _ p => { p with lastOffset := p.offset, offset := o }) (fun _ _ => rfl) (fun _ _ => rfl) t rt.good)).congr ?_
    intro i hi
    show (match t.markers n with | none => none | some o => _) = _
    rw [ho]; rfl

theorem varDefUpd_ran (n : String) (es : List Upd) (s : Score) (r : Ready mo s) (hm : mo.vars = true) (ht : TameL mo mo.varVoices es) (he : (varDefUpd n es s).err = none) :
    Ran mo vf s (varDefUpd n es s).s (Track.varDef n es) := by
  have hst := varDefUpd_steps (L := fun _ => True) (D := False) n es s r.good (allLeavesL_true es)
  unfold varDefUpd at he hst ⊢
  split
  · rename_i e h; rw [h] at he; simp [Out.fail] at he
  · rename_i vs h
    simp only [h, Out.ok] at hst
    refine ⟨⟨hst.good r.good, ?_, r.one⟩, fun _ => rfl, rfl, ?_⟩
    · intro _ k es' hk
      simp only [Out.ok] at hk
      split at hk
      · simp only [Option.some.injEq] at hk; subst hk
        exact varValues_tame s.vars r.vars _ es vs ht h
      · exact r.vars hm k es' hk
    · intro i id hi
      refine ⟨id, hi, ?_⟩
      unfold Track.varDef
      have : varValues (trackOf s id).vars es = .ok vs := h
      rw [this]; rfl

theorem voiceUpd_ran (n : Int) (s : Score) (r : Ready mo s) (he : (voiceUpd n s).err = none) :
    Ran mo true s (voiceUpd n s).s (Track.voice n) := by
  obtain ⟨h1, h2, h3, h4⟩ := forCurrent_index (voiceMarkerAt n) (Track.voice n)
    (fun s i id g hi h => voiceMarkerAt_index n s i id g hi h) s r.good he
  exact ⟨⟨h1.good r.good, by unfold voiceUpd; rw [h2]; exact r.vars, by unfold voiceUpd; rw [h3]; exact r.one⟩, by simp, h3, h4⟩

theorem voiceEndUpd_ran (s : Score) (r : Ready mo s) (he : (voiceEndUpd s).err = none) :
    Ran mo true s (voiceEndUpd s).s Track.voiceEnd := by
  obtain ⟨h1, h2, h3, h4⟩ := forCurrent_index voiceEndAt Track.voiceEnd
    (fun s i id g hi _ => voiceEndAt_index s i id g hi) s r.good he
  exact ⟨⟨h1.good r.good, by unfold voiceEndUpd; rw [h2]; exact r.vars, by unfold voiceEndUpd; rw [h3]; exact r.one⟩, by simp, h3, h4⟩

/-! ### Compound events -/

theorem repLoop_ran (body : Score → Out) (g : Track → Option Track)
    (hb : ∀ s, Ready mo s → (body s).err = none → Ran mo vf s (body s).s g) :
    ∀ (k : Nat) (x : Int) (s : Score), Ready mo s → (repLoop body k x s).err = none →
      Ran mo vf s (repLoop body k x s).s (Track.repeated g k x) := by
  intro k
  induction k with
  | zero => intro x s r _; exact Ran.refl r
  | succ k ih =>
    intro x s r he
    refine Ran.seq (g := Track.setRepetition x) ?_ ?_ he
    · intro _
      exact LoopOk.ran r (timing_loop (fun _ p => { p with repetition := x }) (fun _ _ => rfl) (fun _ _ => rfl) s r.good)
    · intro t rt h
      exact Ran.seq (hb t rt) (fun u ru h => ih (x + 1) u ru h) h

theorem onReps_ran (hone : mo.ranges = true) (rs : List (Int × Int)) (body : Score → Out) (g : Track → Option Track)
    (hb : ∀ s, Ready mo s → (body s).err = none → Ran mo vf s (body s).s g) (s : Score) (r : Ready mo s)
    (he : (forIds (onRepsAt rs body) (List.range s.current.length) s).err = none) :
    Ran mo vf s (forIds (onRepsAt rs body) (List.range s.current.length) s).s
      (fun t => if appliesTo rs t.cell.repetition then g t else some t) := by
  have hl := r.one hone
  match hc : s.current with
  | [] =>
    simp only [List.length_nil, List.range_zero, forIds]
    exact (Ran.refl r).congr (fun i hi => by rw [hc] at hi; simp at hi)
  | [id] =>
    rw [hc] at he
    have hr : List.range [id].length = [0] := rfl
    rw [hr] at he ⊢
    change ((onRepsAt rs body 0 s).andThen (forIds (onRepsAt rs body) [])).err = none at he
    change Ran mo vf s ((onRepsAt rs body 0 s).andThen (forIds (onRepsAt rs body) [])).s _
    have hi : s.current[0]? = some id := by rw [hc]; rfl
    have key : (onRepsAt rs body 0 s).err = none → Ran mo vf s (onRepsAt rs body 0 s).s
        (fun t => if appliesTo rs t.cell.repetition then g t else some t) := by
      intro h
      simp only [onRepsAt, hi] at h ⊢
      by_cases ha : appliesTo rs (s.heap id).repetition = true
      · rw [if_pos ha] at h ⊢
        refine (hb s r h).congr (fun i hi => ?_)
        rw [hc, List.mem_singleton] at hi; subst hi
        show (if appliesTo rs (s.heap i).repetition = true then _ else _) = _
        rw [if_pos ha]
      · rw [if_neg ha]
        refine (Ran.refl r).congr (fun i hi => ?_)
        rw [hc, List.mem_singleton] at hi; subst hi
        show (if appliesTo rs (s.heap i).repetition = true then _ else _) = _
        rw [if_neg ha]
    rcases Out.andThen_s (onRepsAt rs body 0 s) (forIds (onRepsAt rs body) []) with ⟨h0, h1, h2⟩ | ⟨e, h0, h1, h2⟩
    · rw [h1]; exact key h0
    · rw [h2] at he; simp at he
  | a :: b :: l => rw [hc] at hl; simp at hl

theorem shortestLoop_some (s : Score) (d : Dur) : ∀ (ids : List Nat) (m m' : Shortest), shortestLoop s d ids m = some m' → ids.Nodup →
    (∀ i ∈ ids, ∃ ms, (effectiveDuration d (s.heap i)).toMs (s.heap i).tempo = some ms ∧ m' i = minOpt (m i) (ms * (s.heap i).timeScale)) ∧
    ∀ j, j ∉ ids → m' j = m j := by
  intro ids
  induction ids with
  | nil => intro m m' h _; simp only [shortestLoop, Option.some.injEq] at h; subst h; simp
  | cons i is ih =>
    intro m m' h hnd
    obtain ⟨hni, hnd⟩ := List.nodup_cons.1 hnd
    simp only [shortestLoop] at h
    split at h
    · simp at h
    · rename_i ms hms
      obtain ⟨h1, h2⟩ := ih _ m' h hnd
      constructor
      · intro j hj
        rcases List.mem_cons.1 hj with rfl | hj
        · exact ⟨ms, hms, by rw [h2 j hni, if_pos rfl]⟩
        · obtain ⟨ms', a, b⟩ := h1 j hj
          have : j ≠ i := fun e => hni (e ▸ hj)
          rw [if_neg this] at b
          exact ⟨ms', a, b⟩
      · intro j hj
        simp only [List.mem_cons, not_or] at hj
        rw [h2 j hj.2, if_neg hj.1]

theorem cramRestore_loop (old : Nat → Part) (ids : List Nat) (d : Dur) (u : Score) (good : G u) :
    LoopOk u (forIds (cramRestorePart old ids d) u.current u).s u.current (fun i t => some (t.set { t.cell with
      dur := match d with | [] => (if ids.contains i then (old i).dur else []) | _ :: _ => d
      timeScale := (if ids.contains i then (old i).timeScale else 0) })) :=
  timing_loop (fun i p => { p with
    dur := match d with | [] => (if ids.contains i then (old i).dur else []) | _ :: _ => d
    timeScale := (if ids.contains i then (old i).timeScale else 0) }) (fun _ _ => rfl) (fun _ _ => rfl) u good

theorem chordAdvance_loop (m : Shortest) (u : Score) (good : G u) :
    LoopOk u (forIds (chordAdvance m) u.current u).s u.current (fun i => Track.chordAdvance (m i)) :=
  timing_loop (fun i p => { p with lastOffset := p.offset, offset := p.offset + (m i).getD maxFloat }) (fun _ _ => rfl) (fun _ _ => rfl) u good

theorem Ready.chordMode {s : Score} (r : Ready mo s) (b : Bool) : Ready mo { s with chordMode := b } :=
  ⟨(Step.chordMode b).good r.good, r.vars, r.one⟩

/-- What the event loop of a chord does. -/
structure ChordRan (mo : Mode) (s : Score) (m : Shortest) (r : ChordOut) (g : Option Rat → Track → Option (Option Rat × Track)) : Prop where
  ready : Ready mo r.out.s
  cur : r.out.s.current = s.current
  track : ∀ id ∈ s.current, g (m id) (trackOf s id) = some (r.shortest id, trackOf r.out.s id)

mutual
theorem updWith_ran (deref : List Upd → Score → Out) (tderef : List Upd → Track → Option Track)
    (hderef : ∀ vf es s, Ready mo s → TameL mo vf es → (deref es s).err = none → Ran mo vf s (deref es s).s (tderef es)) :
    ∀ (vf : Bool) (e : Upd) (s : Score), Tame mo vf e → Ready mo s → (updWith deref e s).err = none →
      Ran mo vf s (updWith deref e s).s (Track.updWith tderef e)
  | vf, .leaf l, s, _, r, he => by simp only [updWith, Track.updWith] at he ⊢; exact leafUpd_ran l s r he
  | vf, .lisp es, s, _, r, he => by
    simp only [updWith] at he ⊢
    split
    · rename_i e h; rw [h] at he; simp [Out.fail] at he
    · rename_i h; exact (Ran.refl r).congr (fun i _ => by simp only [Track.updWith, h])
    · rename_i l h; rw [h] at he; exact (leafUpd_ran l s r he).congr (fun i _ => by simp only [Track.updWith, h])
  | vf, .lispNil, s, _, r, _ | vf, .barline, s, _, r, _ => by simp only [updWith, Track.updWith]; exact Ran.refl r
  | vf, .chord es, s, ht, r, he => by
    simp only [updWith, Track.updWith, Tame] at he ht ⊢
    refine Ran.seq (applyGlobals_ran s r) ?_ he
    intro t rt h
    rcases Out.andThen_s (chordEvents deref es (fun i => if t.current.contains i then none else some 0) { t with chordMode := true }).out
      (fun s => forIds (chordAdvance (chordEvents deref es (fun i => if t.current.contains i then none else some 0) { t with chordMode := true }).shortest) s.current { s with chordMode := false }) with ⟨h0, h1, h2⟩ | ⟨e, h0, h1, h2⟩
    · rw [h2] at h; rw [h1]
      have c := chordEvents_ran deref tderef hderef es (fun i => if t.current.contains i then none else some 0) { t with chordMode := true } ht (rt.chordMode true) h0
      generalize (chordEvents deref es (fun i => if t.current.contains i then none else some 0) { t with chordMode := true }) = o at h h0 c ⊢
      have l := chordAdvance_loop o.shortest { o.out.s with chordMode := false } (c.ready.chordMode false).good
      have hc : ({ o.out.s with chordMode := false } : Score).current = t.current := c.cur
      have rr := (c.ready.chordMode false)
      simp only at l
      refine ⟨⟨l.steps.good rr.good, by rw [l.vars]; exact rr.vars, by rw [l.cur]; exact rr.one⟩, fun _ => l.cur.trans hc, by rw [l.cur, hc], ?_⟩
      intro i id hi
      have hid := List.mem_of_getElem? hi
      refine ⟨id, by rw [l.cur, hc]; exact hi, ?_⟩
      have c2 := c.track id hid
      simp only [List.contains_eq_mem, hid, decide_true, if_true] at c2
      have l2 := l.done id (by rw [hc]; exact hid)
      have e1 : ({ trackOf t id with chordMode := true } : Track) = trackOf { t with chordMode := true } id := rfl
      rw [e1, c2]
      exact l2
    · rw [h2] at h; simp at h
  | vf, .cram es d, s, ht, r, he => by
    simp only [updWith, Tame] at he ht ⊢
    have scale : (forIds (cramScalePart s.vars es d) s.current s).err = none →
        LoopOk s (forIds (cramScalePart s.vars es d) s.current s).s s.current (fun _ => Track.cramScale es d) := by
      intro h
      refine forCurrent_local _ _ (fun t => t.vars = s.vars) (fun t id g hI hid h => ?_) s r.good rfl h
      simp only [cramScalePart] at h ⊢
      split
      · rename_i hn; rw [hn] at h; simp [Out.fail] at h
      · rename_i x hx
        refine ⟨timing_local t id g hid (fun p => { p with timeScale := x }) (fun p => rfl) _ ?_, hI⟩
        unfold Track.cramScale
        have : cramTimeScale (trackOf t id).vars es d (trackOf t id).cell = some x := by
          show cramTimeScale t.vars es d (t.heap id).bare = _
          rw [cramTimeScale_bare, hI, hx]
        rw [this]; rfl
    rcases Out.andThen_s (forIds (cramScalePart s.vars es d) s.current s)
      (fun t => (updListWith deref es t).andThen fun t => forIds (cramRestorePart s.heap s.current d) t.current t) with ⟨h0, h1, h2⟩ | ⟨e, h0, h1, h2⟩
    · rw [h2] at he; rw [h1]
      have l1 := scale h0
      have r1 : Ran mo false s _ _ := l1.ran r
      generalize (forIds (cramScalePart s.vars es d) s.current s).s = t at he l1 r1 ⊢
      rcases Out.andThen_s (updListWith deref es t) (fun t => forIds (cramRestorePart s.heap s.current d) t.current t) with ⟨k0, k1, k2⟩ | ⟨e, k0, k1, k2⟩
      · rw [k2] at he; rw [k1]
        have r2 := updListWith_ran deref tderef hderef false es t ht r1.ready k0
        generalize (updListWith deref es t).s = u at he r2 ⊢
        have r12 := r1.trans r2
        have l3 := cramRestore_loop s.heap s.current d u r2.ready.good
        have hcu := r12.cur rfl
        refine ⟨⟨l3.steps.good r2.ready.good, by rw [show (forIds (cramRestorePart s.heap s.current d) u.current u).s.vars = u.vars from l3.vars]; exact r2.ready.vars,
          by rw [show (forIds (cramRestorePart s.heap s.current d) u.current u).s.current = u.current from l3.cur]; exact r2.ready.one⟩,
          fun _ => l3.cur.trans hcu, (congrArg List.length l3.cur).trans r12.len, ?_⟩
        intro i id hi
        have hid := List.mem_of_getElem? hi
        obtain ⟨id', hid', hg⟩ := r12.track i id hi
        rw [hcu, hi, Option.some.injEq] at hid'
        subst hid'
        refine ⟨id, (congrArg (·[i]?) l3.cur).trans (by rw [hcu]; exact hi), ?_⟩
        have l4 := l3.done id (by rw [hcu]; exact hid)
        have hct : s.current.contains id = true := by simpa using hid
        simp only [hct, if_true] at l4
        simp only [Track.updWith]
        have : ((Track.cramScale es d (trackOf s id)).bind fun t1 => (Track.listWith tderef es t1).bind (Track.cramRestore (trackOf s id).cell d)) =
            ((Track.cramScale es d (trackOf s id)).bind (Track.listWith tderef es)).bind (Track.cramRestore (trackOf s id).cell d) := by
          rw [Option.bind_assoc]
        rw [this, hg]
        exact l4
      · rw [k2] at he; simp at he
    · rw [h2] at he; simp at he
  | vf, .seq es, s, ht, r, he => by
    simp only [updWith, Tame] at he ht ⊢
    refine (updListWith_ran deref tderef hderef vf es s ht r he).congr (fun i _ => by simp only [Track.updWith])
  | vf, .rep e n, s, ht, r, he => by
    simp only [updWith, Tame] at he ht ⊢
    exact (repLoop_ran _ _ (fun s r h => updWith_ran deref tderef hderef vf e s ht r h) n.toNat 1 s r he).congr (fun i _ => by simp only [Track.updWith])
  | vf, .onReps rs e, s, ht, r, he => by
    simp only [updWith, Tame] at he ht ⊢
    exact (onReps_ran ht.1 rs _ _ (fun s r h => updWith_ran deref tderef hderef vf e s ht.2 r h) s r he).congr (fun i _ => by simp only [Track.updWith])
  | vf, .voice n, s, ht, r, he => by
    simp only [updWith, Tame] at he ht ⊢; subst ht
    exact (voiceUpd_ran n s r he).congr (fun i _ => by simp only [Track.updWith])
  | vf, .voiceEnd, s, ht, r, he => by
    simp only [updWith, Tame] at he ht ⊢; subst ht
    exact (voiceEndUpd_ran s r he).congr (fun i _ => by simp only [Track.updWith])
  | vf, .marker n, s, _, r, he => by
    simp only [updWith] at he ⊢
    exact (markerUpd_ran n s r he).congr (fun i _ => by simp only [Track.updWith])
  | vf, .atMarker n, s, _, r, he => by
    simp only [updWith] at he ⊢
    exact (atMarkerUpd_ran n s r he).congr (fun i _ => by simp only [Track.updWith])
  | vf, .varDef n es, s, ht, r, he => by
    simp only [updWith, Tame] at he ht ⊢
    exact (varDefUpd_ran n es s r ht.1 ht.2 he).congr (fun i _ => by simp only [Track.updWith])
  | vf, .varRef n, s, ht, r, he => by
    simp only [updWith, Tame] at he ht ⊢
    split
    · rename_i h; rw [h] at he; simp [Out.fail] at he
    · rename_i es h; rw [h] at he
      refine (hderef vf es s r (TameL.mono ht.2 es (r.vars ht.1 n es h)) he).congr (fun i _ => ?_)
      simp only [Track.updWith]
      have : (trackOf s i).vars n = some es := h
      rw [this]
  | vf, .partDecl _ _, s, ht, _, _ => by simp only [Tame] at ht
theorem updListWith_ran (deref : List Upd → Score → Out) (tderef : List Upd → Track → Option Track)
    (hderef : ∀ vf es s, Ready mo s → TameL mo vf es → (deref es s).err = none → Ran mo vf s (deref es s).s (tderef es)) :
    ∀ (vf : Bool) (es : List Upd) (s : Score), TameL mo vf es → Ready mo s → (updListWith deref es s).err = none →
      Ran mo vf s (updListWith deref es s).s (Track.listWith tderef es)
  | vf, [], s, _, r, _ => by simp only [updListWith, Track.listWith]; exact Ran.refl r
  | vf, e :: es, s, ht, r, he => by
    simp only [updListWith, TameL] at he ht ⊢
    refine (Ran.seq (updWith_ran deref tderef hderef vf e s ht.1 r) (fun t rt h => updListWith_ran deref tderef hderef vf es t ht.2 rt h) he).congr ?_
    intro i _; simp only [Track.listWith]
theorem chordEvents_ran (deref : List Upd → Score → Out) (tderef : List Upd → Track → Option Track)
    (hderef : ∀ vf es s, Ready mo s → TameL mo vf es → (deref es s).err = none → Ran mo vf s (deref es s).s (tderef es)) :
    ∀ (es : List Upd) (m : Shortest) (s : Score), TameL mo false es → Ready mo s → (chordEvents deref es m s).out.err = none →
      ChordRan mo s m (chordEvents deref es m s) (Track.chordWith tderef es)
  | [], m, s, _, r, _ => by simp only [chordEvents]; exact ⟨r, rfl, fun id _ => by simp only [Track.chordWith]; rfl⟩
  | e :: es, m, s, ht, r, he => by
    simp only [chordEvents, TameL] at he ht ⊢
    split
    · rename_i h; rw [h] at he; simp [Out.fail] at he
    · rename_i m' h
      rw [h] at he
      simp only at he
      obtain ⟨h1, _⟩ := shortestLoop_some s _ _ _ _ h r.good.wf.cur_ids_nodup
      have r1 := updWith_ran deref tderef hderef false e s ht.1 r
      split
      · rename_i err s' hu; rw [hu] at he; simp [Out.fail] at he
      · rename_i s' hu
        rw [hu] at he r1
        have r1 := r1 rfl
        have c := chordEvents_ran deref tderef hderef es m' s' ht.2 r1.ready he
        have hc : s'.current = s.current := r1.cur rfl
        refine ⟨c.ready, c.cur.trans hc, ?_⟩
        intro id hid
        obtain ⟨i, hi⟩ := List.getElem?_of_mem hid
        obtain ⟨id', hid', hg⟩ := r1.track i id hi
        simp only at hid' hg
        rw [hc, hi, Option.some.injEq] at hid'
        subst hid'
        obtain ⟨ms, hms, hm⟩ := h1 id hid
        simp only [Track.chordWith]
        have e1 : (effectiveDuration (specifiedDuration e) (trackOf s id).cell).toMs (trackOf s id).cell.tempo = some ms := by
          rw [← hms]
          show (effectiveDuration (specifiedDuration e) (s.heap id).bare).toMs (s.heap id).tempo = _
          congr 1
        rw [e1]
        simp only
        rw [hg]
        simp only [Option.bind_some]
        have e2 : minOpt (m id) (ms * (trackOf s id).cell.timeScale) = m' id := hm.symm
        rw [e2]
        exact c.track id (by rw [hc]; exact hid)
end

/-- A successful run does to the track of every active part what `Track.list` says. -/
theorem update_ran (vf : Bool) (es : List Upd) (s : Score) (ht : TameL mo vf es) (r : Ready mo s) (he : (update es s).err = none) :
    Ran mo vf s (update es s).s (Track.list es) := by
  have h0 : ∀ vf es s, Ready mo s → TameL mo vf es → (derefUpd es s).err = none →
      Ran mo vf s (derefUpd es s).s (Track.listWith (fun _ _ => none) es) := by
    intro vf es s r ht he
    exact updListWith_ran _ (fun _ _ => none) (fun _ _ _ _ _ h => by simp [Out.fail] at h) vf es s ht r he
  exact updListWith_ran derefUpd _ h0 vf es s ht r he

theorem upd_ran (vf : Bool) (e : Upd) (s : Score) (ht : Tame mo vf e) (r : Ready mo s) (he : (upd e s).err = none) :
    Ran mo vf s (upd e s).s (Track.upd e) := by
  have h0 : ∀ vf es s, Ready mo s → TameL mo vf es → (derefUpd es s).err = none →
      Ran mo vf s (derefUpd es s).s (Track.listWith (fun _ _ => none) es) := by
    intro vf es s r ht he
    exact updListWith_ran _ (fun _ _ => none) (fun _ _ _ _ _ h => by simp [Out.fail] at h) vf es s ht r he
  exact updWith_ran derefUpd _ h0 vf e s ht r he

end
end Alda
