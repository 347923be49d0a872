import Verif.Lemmas.Frame
import Verif.Lemmas.Demo
/-!
C21 - C23 and C25: tempo master, notes are only added, errors, inactive instruments.
-/
namespace Alda

example : (update demo newScore).err = none ∧ (update demo newScore).s.events.map (fun e => (e.part, e.note, e.offset)) =
    [(0, 60, 0), (0, 64, 500), (1, 67, 0), (1, 60, 1000)] := by decide +kernel

/-! ### C21 -/

/-- The part list is empty, or its first instrument and no other is the tempo master. -/
def MasterInv (s : Score) : Prop :=
  ∀ i < s.next, ((s.heap i).tempoMaster = true ↔ (origins s s.parts).head? = some (s.heap i).origin)

theorem head_dedup (l : List Nat) : ∀ (a : Nat) (as : List Nat), (dedup (a :: as) l).head? = some a := by
  induction l with
  | nil => intro a as; rfl
  | cons i is ih =>
    intro a as
    simp only [dedup]
    split
    · exact ih a as
    · exact ih a (as ++ [i])

theorem Step.master {L D} {s t : Score} (h : Step L D s t) (w : WF s) (m : MasterInv s) :
    MasterInv t ∧ (s.parts ≠ [] → (origins t t.parts).head? = (origins s s.parts).head?) := by
  have stab := (h.stable w).2
  have shape : ∀ {u : Score}, SameShape s u → MasterInv u ∧ (s.parts ≠ [] → (origins u u.parts).head? = (origins s s.parts).head?) := by
    intro u hh
    have e : origins u u.parts = origins s s.parts := by rw [hh.parts]; exact origins_congr (fun i _ => (hh.cells i).origin)
    refine ⟨fun i hi => ?_, fun _ => by rw [e]⟩
    rw [e, (hh.cells i).tempoMaster, (hh.cells i).origin]
    exact m i (by rw [hh.next] at hi; exact hi)
  have grow : ∀ {u : Score} (j : Nat), u.parts = s.parts → u.next = s.next + 1 → j < s.next →
      (∀ i < s.next, (u.heap i).origin = (s.heap i).origin ∧ (u.heap i).tempoMaster = (s.heap i).tempoMaster) →
      ((u.heap s.next).origin = (s.heap j).origin ∧ (u.heap s.next).tempoMaster = (s.heap j).tempoMaster) →
      MasterInv u ∧ (s.parts ≠ [] → (origins u u.parts).head? = (origins s s.parts).head?) := by
    intro u j hp hn hj hold hnew
    have e : origins u u.parts = origins s s.parts := by
      rw [hp]; exact origins_congr (fun i hi => (hold i (w.parts_lt i hi)).1)
    refine ⟨fun i hi => ?_, fun _ => by rw [e]⟩
    rw [e]
    by_cases h : i = s.next
    · rw [h, hnew.1, hnew.2]; exact m j hj
    · have : i < s.next := by omega
      rw [(hold i this).1, (hold i this).2]; exact m i this
  cases h with
  | attr hid hL hu => exact shape (SameShape.setPart ((updatePart_identity hu).override _))
  | globals hid => exact shape (applyGlobalsPart_shape _ s)
  | record o u hL => exact shape ⟨fun _ => .refl _, rfl, rfl, rfl, rfl, rfl, rfl⟩
  | emit d a hid ha hn hd hc => exact shape (emitted_shape _ _ _ _ _ _)
  | timing o l t d r hid => exact shape (SameShape.setPart ⟨rfl, rfl, rfl, rfl, rfl, rfl⟩)
  | chordMode b => exact shape ⟨fun _ => .refl _, rfl, rfl, rfl, rfl, rfl, rfl⟩
  | marker n o => exact shape ⟨fun _ => .refl _, rfl, rfl, rfl, rfl, rfl, rfl⟩
  | setVar n es hes => exact shape ⟨fun _ => .refl _, rfl, rfl, rfl, rfl, rfl, rfl⟩
  | @template id hid hv ht =>
    have hlt := w.cur_lt id hid
    have hne : id ≠ s.next := by omega
    refine grow id rfl rfl hlt ?_ ?_
    · intro i hi
      simp only [Score.modPart, Score.setPart, Score.alloc, hne, if_false]
      split
      · rename_i h; rw [h]; exact ⟨rfl, rfl⟩
      · rw [if_neg (by omega)]; exact ⟨rfl, rfl⟩
    · simp only [Score.modPart, Score.setPart, Score.alloc, hne, if_false, Ne.symm hne, if_true]
      exact ⟨rfl, rfl⟩
  | @newVoice id t n hid ht hn =>
    have hlt := w.cur_lt id hid
    obtain ⟨htl, hto⟩ := w.tmpl id hlt t ht
    have hp : ∀ i, (addVoice id n s).1.s.heap i = if i = s.next then (s.heap t).clone else s.heap i := by
      intro i; simp only [addVoice, ht, Score.alloc, Score.setPart, Out.ok]
    refine grow t ?_ ?_ htl ?_ ?_
    · simp only [addVoice, ht, Score.alloc, Score.setPart, Out.ok]
    · simp only [addVoice, ht, Score.alloc, Score.setPart, Out.ok]
    · intro i hi; rw [hp, if_neg (by omega)]; exact ⟨rfl, rfl⟩
    · rw [hp, if_pos rfl]; exact ⟨rfl, rfl⟩
  | @enterVoice id n v hid hv => exact ⟨m, fun _ => rfl⟩
  | endVoices i =>
    rcases voiceEndAt_cases i s with h | ⟨id, v, num, e⟩
    · rw [h]; exact ⟨m, fun _ => rfl⟩
    · obtain ⟨hm, hidlt, hvlt, hvo⟩ := e.lt w
      have eq : origins (voiceEndAt i s).s (voiceEndAt i s).s.parts = origins s s.parts := by
        rw [e.parts, ← show origins s (replaceByOrigin s (s.heap id).origin v s.parts) = origins s s.parts from
          replaceByOrigin_origins s _ v hvo _]
        exact origins_congr (fun j _ => e.origin j)
      refine ⟨fun j hj => ?_, fun _ => by rw [eq]⟩
      rw [e.next] at hj
      rw [eq, e.origin]
      have : ((voiceEndAt i s).s.heap j).tempoMaster = (s.heap j).tempoMaster := by
        rw [e.heap]; split
        · rename_i h; rw [h]
        · rfl
      rw [this]; exact m j hj
  | newPart hD name h =>
    obtain ⟨instr, hi, _, p, po, _, h2, _, h3, hm, h5, h6, h7, h8, h9, h10, h11, _, h13, h14, h15, h16, _, _, rfl⟩ := newPart_eq h
    have eq : origins { s with heap := fun j => if j = s.next then p else s.heap j } s.parts = origins s s.parts :=
      origins_congr (fun i hi => by have := w.parts_lt i hi; simp only; rw [if_neg (by omega)])
    refine ⟨fun j hj => ?_, fun _ => by exact congrArg List.head? eq⟩
    show ((if j = s.next then p else s.heap j).tempoMaster = true ↔
      (origins { s with heap := fun j => if j = s.next then p else s.heap j } s.parts).head? = some (if j = s.next then p else s.heap j).origin)
    rw [eq]
    split
    · rw [hm, po]
      constructor
      · intro h; simp at h
      · intro h
        cases hp : s.parts with
        | nil => rw [hp] at h; simp [origins] at h
        | cons a as =>
          rw [hp] at h
          simp only [origins, List.map_cons, List.head?_cons, Option.some.injEq] at h
          have := w.org_lt a (w.parts_lt a (by rw [hp]; exact List.mem_cons_self ..))
          omega
    · rename_i hne
      simp only at hj
      exact m j (by omega)
  | declare hD parts alias hp hn hne hg =>
    have hpp : (declareParts parts alias s).parts = dedup s.parts parts := by
      simp only [declareParts]; rw [markMaster_rest]
    have hnx : (declareParts parts alias s).next = s.next := by
      obtain ⟨_, _, _, h⟩ := declareParts_rest parts alias s; rw [h]
    have ho : ∀ i, ((declareParts parts alias s).heap i).origin = (s.heap i).origin := by
      intro i; rw [declareParts_heap]; rcases markMaster_heap parts s i with h | ⟨_, _, h⟩ <;> rw [h]
    have eo : ∀ l, origins (declareParts parts alias s) l = origins s l := fun l => origins_congr (fun i _ => ho i)
    cases hsp : s.parts with
    | cons a as =>
      have hd : (origins (declareParts parts alias s) (declareParts parts alias s).parts).head? = (origins s s.parts).head? := by
        rw [eo, hpp, hsp]
        simp only [origins, List.head?_map, head_dedup, List.map_cons, List.head?_cons, Option.map_some]
      refine ⟨fun i hi => ?_, fun _ => by rw [hd, hsp]⟩
      rw [hd, ho]
      rw [hnx] at hi
      have : ((declareParts parts alias s).heap i).tempoMaster = (s.heap i).tempoMaster := by
        rw [declareParts_heap]
        rcases markMaster_heap parts s i with h | ⟨h', _, h⟩
        · rw [h]
        · rw [hsp] at h'; simp at h'
      rw [this]; exact m i hi
    | nil =>
      refine ⟨?_, fun h => absurd rfl h⟩
      obtain ⟨p0, ps, rfl⟩ := List.exists_cons_of_ne_nil (hne hsp)
      have f0 : Fresh s p0 := by
        rcases hp p0 (List.mem_cons_self ..) with h | h
        · rw [hsp] at h; simp at h
        · exact h
      intro i hi
      rw [hnx] at hi
      rw [eo, ho, hpp, hsp]
      have hd : (origins s (dedup [] (p0 :: ps))).head? = some p0 := by
        simp only [dedup, List.contains_nil, Bool.false_eq_true, if_false, List.nil_append, origins, List.head?_map, head_dedup,
          Option.map_some, f0.org]
      rw [hd, declareParts_heap]
      have old := m i hi
      rw [hsp] at old
      simp only [origins, List.map_nil, List.head?_nil, reduceCtorEq, iff_false] at old
      have mh : (markMaster (p0 :: ps) s).heap i = if i = p0 then { s.heap p0 with tempoMaster := true } else s.heap i := by
        simp only [markMaster, hsp, Score.modPart, Score.setPart]
      rw [mh]
      simp only [Option.some.injEq]
      split
      · rename_i h; subst h; simp [f0.org]
      · rename_i h
        constructor
        · intro h'; exact absurd h' old
        · intro h'; exact absurd (f0.only i hi h'.symm) h

theorem Steps.master {L D} {s t : Score} (h : Steps L D s t) (w : WF s) (m : MasterInv s) :
    WF t ∧ MasterInv t ∧ (s.parts ≠ [] → (origins t t.parts).head? = (origins s s.parts).head?) := by
  induction h with
  | refl => exact ⟨w, m, fun _ => rfl⟩
  | @tail t u _ hs ih =>
    obtain ⟨w', m', h'⟩ := ih
    obtain ⟨m'', h''⟩ := hs.master w' m'
    refine ⟨hs.wf w', m'', fun hne => ?_⟩
    rw [h'' ?_, h' hne]
    intro hnil
    have := h' hne
    rw [hnil] at this
    cases hsp : s.parts with
    | nil => exact hne hsp
    | cons a as => rw [hsp] at this; simp [origins] at this

theorem Reachable.master {s : Score} (h : Reachable s) : MasterInv s :=
  (h.steps.master newScore_wf (by intro i hi; simp [newScore] at hi)).2.1

/-- C21: the first of the score's instruments is the tempo master and no other one is. -/
theorem c21_one_master (s : Score) (hr : Reachable s) (first : Nat) (others : List Nat) (hp : s.parts = first :: others) :
    (s.heap first).tempoMaster = true ∧ ∀ q ∈ others, (s.heap q).tempoMaster = false := by
  have m := hr.master
  have w := hr.wf
  have hd : (origins s s.parts).head? = some (s.heap first).origin := by rw [hp]; rfl
  refine ⟨(m first (w.parts_lt first (by rw [hp]; exact List.mem_cons_self ..))).2 hd, ?_⟩
  intro q hq
  have hmem : q ∈ s.parts := by rw [hp]; exact List.mem_cons_of_mem _ hq
  have hne : (s.heap first).origin ≠ (s.heap q).origin := by
    have := w.parts_nodup
    rw [hp, List.map_cons, List.nodup_cons] at this
    intro h; exact this.1 (List.mem_map.2 ⟨q, hq, h.symm⟩)
  cases hq : (s.heap q).tempoMaster with
  | false => rfl
  | true =>
    have := (m q (w.parts_lt q hmem)).1 hq
    rw [hd] at this
    simp only [Option.some.injEq] at this
    exact absurd this hne

/-- C21: whatever is evaluated later, the master stays the same instrument, and first in the list. -/
theorem c21_same_forever (s : Score) (hr : Reachable s) (first : Nat) (others : List Nat) (hp : s.parts = first :: others) (more : List Upd) :
    ∃ first' others', (update more s).s.parts = first' :: others' ∧
      ((update more s).s.heap first').origin = (s.heap first).origin ∧ ((update more s).s.heap first').tempoMaster = true := by
  have hs := update_all_steps more s hr.good
  obtain ⟨w', m', h'⟩ := hs.master hr.wf hr.master
  have hh := h' (by simp [hp])
  rw [hp] at hh
  cases ht : (update more s).s.parts with
  | nil => rw [ht] at hh; simp [origins] at hh
  | cons a as =>
    have hh' := hh
    rw [ht] at hh
    simp only [origins, List.map_cons, List.head?_cons, Option.some.injEq] at hh
    refine ⟨a, as, rfl, hh, ?_⟩
    refine (m' a (w'.parts_lt a (by rw [ht]; exact List.mem_cons_self ..))).2 ?_
    rw [ht]; rfl

example : ((update demo newScore).s.parts.map fun q => ((update demo newScore).s.heap q).tempoMaster) = [true, false] := by decide +kernel

/-! ### C22 -/

/-- C22: evaluating more updates, with or without an error, only adds notes at the end. -/
theorem c22_notes_stay (s : Score) (hr : Reachable s) (more : List Upd) : s.events <+: (update more s).s.events := by
  refine (update_all_steps more s hr.good).relation (R := fun s t => s.events <+: t.events) (fun s => List.prefix_refl _)
    (fun _ _ _ h h' => h.trans h') ?_
  intro s t h
  rcases h.notes with ⟨he, _⟩ | ⟨id, ch, note, d, a, _, _, _, _, _, ht⟩
  · rw [he]; exact List.prefix_refl _
  · rw [ht, emitted_events]; exact List.prefix_append ..

/-- C22: the instrument that a note belongs to stays what it is. -/
theorem c22_instrument_stays (s : Score) (hr : Reachable s) (more : List Upd) (i : Nat) (hi : i < s.next) :
    ((update more s).s.heap i).instr = (s.heap i).instr ∧ ((update more s).s.heap i).name = (s.heap i).name := by
  have key : ∀ {t : Score}, Steps (fun _ => True) True s t → WF t ∧ s.next ≤ t.next ∧ (t.heap i).instr = (s.heap i).instr ∧ (t.heap i).name = (s.heap i).name := by
    intro t h
    induction h with
    | refl => exact ⟨hr.wf, Nat.le_refl _, rfl, rfl⟩
    | tail _ hs ih =>
      obtain ⟨w, hn, h1, h2⟩ := ih
      obtain ⟨hn', hst⟩ := hs.stable w
      obtain ⟨_, h3, h4⟩ := hst i (by omega)
      exact ⟨hs.wf w, by omega, h3.trans h1, h4.trans h2⟩
  exact (key (update_all_steps more s hr.good)).2.2

/-! ### C23 -/

theorem updListWith_append (deref : List Upd → Score → Out) (a b : List Upd) :
    ∀ s, updListWith deref (a ++ b) s = (updListWith deref a s).andThen (updListWith deref b) := by
  induction a with
  | nil => intro s; simp only [List.nil_append, updListWith]; rfl
  | cons e es ih =>
    intro s
    simp only [List.cons_append, updListWith]
    generalize updWith deref e s = o
    unfold Out.andThen
    cases o.err with
    | none => simp only; rw [ih]; rfl
    | some e => rfl

/-- C23: updating with two lists one after the other is the same as updating with their concatenation. -/
theorem c23_append (a b : List Upd) (s : Score) :
    update (a ++ b) s =
      match (update a s).err with
      | none => update b (update a s).s
      | some e => ⟨some e, (update a s).s⟩ := by
  have := updListWith_append derefUpd a b s
  simp only [update, this]
  unfold Out.andThen
  rfl

/-- C23: if the result is an error, it is that of the first update that failed, all before it succeeded, and none after it had any effect. -/
theorem c23_first_error (es : List Upd) (s : Score) (err : Err) (h : (update es s).err = some err) :
    ∃ before failed after, es = before ++ failed :: after ∧ (update before s).err = none ∧
      (upd failed (update before s).s).err = some err ∧ (update es s).s = (upd failed (update before s).s).s := by
  induction es generalizing s with
  | nil => simp [update, updListWith, Out.ok] at h
  | cons e es ih =>
    have hcons : update (e :: es) s = (upd e s).andThen (update es) := rfl
    rw [hcons] at h ⊢
    rcases Out.andThen_s (upd e s) (update es) with ⟨he, hs, hee⟩ | ⟨e', he, hs, hee⟩
    · rw [hee] at h
      obtain ⟨b, f, a, h1, h2, h3, h4⟩ := ih (upd e s).s h
      have hb : update (e :: b) s = update b (upd e s).s := by
        show (upd e s).andThen (update b) = _
        unfold Out.andThen; rw [he]
      refine ⟨e :: b, f, a, by rw [h1]; rfl, by rw [hb]; exact h2, by rw [hb]; exact h3, by rw [hs, hb]; exact h4⟩
    · rw [hee] at h
      refine ⟨[], e, es, rfl, rfl, ?_, hs⟩
      show (upd e s).err = some err
      rw [he]; exact h

/-- C23: if the result is no error, every update succeeded in turn. -/
theorem c23_no_error (es : List Upd) (s : Score) (h : (update es s).err = none) (before after : List Upd) (u : Upd)
    (hes : es = before ++ u :: after) : (update before s).err = none ∧ (upd u (update before s).s).err = none := by
  subst hes
  rw [c23_append] at h
  cases hb : (update before s).err with
  | some e => rw [hb] at h; simp at h
  | none =>
    rw [hb] at h
    refine ⟨rfl, ?_⟩
    have hcons : update (u :: after) (update before s).s = (upd u (update before s).s).andThen (update after) := rfl
    simp only at h
    rw [hcons] at h
    rcases Out.andThen_s (upd u (update before s).s) (update after) with ⟨he, _, _⟩ | ⟨e', he, hs, hee⟩
    · exact he
    · rw [hee] at h; simp at h

/-! ### C25 -/

theorem inactive_good {s : Score} (g : Good (fun _ => True) True s) {q : Nat} (hq : q ∈ s.parts)
    (hinactive : ∀ c ∈ s.current, (s.heap c).origin ≠ (s.heap q).origin) (events : List Upd) (hnd : NoDeclL events) :
    q ∈ (update events s).s.parts ∧ (update events s).s.heap q = s.heap q ∧
    origins (update events s).s (update events s).s.current = origins s s.current ∧
    ∃ new, (update events s).s.events = s.events ++ new ∧ ∀ e ∈ new, e.part ≠ (s.heap q).origin := by
  have hs : Steps (fun _ => True) False s (update events s).s :=
    update_steps events s (allLeavesL_true events) (Or.inr hnd) (g.weaken _)
  have hqlt := g.wf.parts_lt q hq
  have hin : (s.heap q).origin ∉ origins s s.current := by
    intro h; obtain ⟨c, hc, he⟩ := List.mem_map.1 h; exact hinactive c hc he
  have key : ∀ {t : Score}, Steps (fun _ => True) False s t → WF t ∧ s.next ≤ t.next ∧ origins t t.current = origins s s.current ∧
      q ∈ t.parts ∧ t.heap q = s.heap q ∧ ∃ new, t.events = s.events ++ new ∧ ∀ e ∈ new, e.part ≠ (s.heap q).origin := by
    intro t h
    induction h with
    | refl => exact ⟨g.wf, Nat.le_refl _, rfl, hq, rfl, [], by simp, by simp⟩
    | @tail t u _ hs ih =>
      obtain ⟨w, hn, hc, hqp, hheap, new, hev, hnew⟩ := ih
      have hin' : (t.heap q).origin ∉ origins t t.current := by rw [hc, hheap]; exact hin
      refine ⟨hs.wf w, Nat.le_trans hn (hs.stable w).1, (hs.current_origins (fun h => h) w).trans hc, ?_, ?_, ?_⟩
      · cases hs with
        | globals hid => obtain ⟨p, h⟩ := applyGlobalsPart_rest _ t; rw [h]; exact hqp
        | emit d a hid ha hn hd hc => obtain ⟨_, _, _, h⟩ := emitted_rest t _ _ _ d a; rw [h]; exact hqp
        | newVoice n hid ht hn => obtain ⟨_, _, _, h⟩ := addVoice_rest _ n t; rw [h]; exact hqp
        | endVoices i =>
          rcases voiceEndAt_cases i t with h | ⟨id, v, num, e⟩
          · rw [h]; exact hqp
          · rw [e.parts]
            refine List.mem_map.2 ⟨q, hqp, if_neg ?_⟩
            intro h; exact hin' (by rw [h]; exact mem_origins (e.lt w).1)
        | newPart hD name h => exact hD.elim
        | declare hD parts alias hp hn hne hg => exact hD.elim
        | _ => exact hqp
      · rw [(hs.frame (fun h => h) w q (by omega) hin').1]; exact hheap
      · rcases hs.notes with ⟨he, _⟩ | ⟨id, ch, note, d, a, hid, _, _, _, _, ht⟩
        · exact ⟨new, by rw [he]; exact hev, hnew⟩
        · refine ⟨new ++ [emittedNote t id ch note d a], by rw [ht, emitted_events, hev, List.append_assoc], ?_⟩
          intro e he
          rcases List.mem_append.1 he with he | he
          · exact hnew e he
          · simp only [List.mem_singleton] at he; subst he
            intro h
            apply hin'
            rw [hheap, ← h]; exact mem_origins hid
  obtain ⟨w, _, hc, h1, h2, h3⟩ := key hs
  exact ⟨h1, h2, hc, h3⟩

/-- C25: events other than part declarations leave an instrument that is not active as it was: its part stays in the score with all its attributes and its position, and it gets
no note. -/
theorem c25_inactive (s : Score) (hr : Reachable s) (q : Nat) (hq : q ∈ s.parts)
    (hinactive : ∀ c ∈ s.current, (s.heap c).origin ≠ (s.heap q).origin) (events : List Upd) (hnd : NoDeclL events) :
    q ∈ (update events s).s.parts ∧ (update events s).s.heap q = s.heap q ∧
    (∀ c ∈ (update events s).s.current, ((update events s).s.heap c).origin ≠ (s.heap q).origin) ∧
    ∃ new, (update events s).s.events = s.events ++ new ∧ ∀ e ∈ new, e.part ≠ (s.heap q).origin := by
  obtain ⟨h1, h2, hc, h3⟩ := inactive_good hr.good hq hinactive events hnd
  refine ⟨h1, h2, ?_, h3⟩
  intro c hcc h
  obtain ⟨d, hd, he⟩ := List.mem_map.1 (hc ▸ mem_origins hcc)
  exact hinactive d hd (he.trans h)

-- after `demo` the violin is active; the piano (part 0) is not
example : (update demo newScore).s.parts = [0, 1] ∧ (update demo newScore).s.current = [1] := by decide +kernel
example : (update (demo.take 2) newScore).s.events ≠ [] ∧
    (update [Upd.leaf (.note (.letter .C none) [] false), Upd.varRef "undefined", .leaf (.rest [])] (update (demo.take 2) newScore).s).err =
      some (.user "undefined variable") := by decide +kernel

end Alda
