import Verif.Lemmas.JoinMove
import Verif.Lemmas.JoinText
import Verif.Props.Parse
/-!
Parsing one text after another. (For C56.)
-/
namespace Alda
namespace Syn
open Spec

/-! ### The parentheses of a program are balanced -/

theorem all_balance {k : Tok} (hk : opens k = 0) {ts : List Token} (h : All k ts) : balance ts = 0 := by
  induction ts with
  | nil => rfl
  | cons t ts ih => rw [balance_cons, h t (List.mem_cons_self ..), hk, ih (fun u hu => h u (List.mem_cons_of_mem _ hu))]; rfl

theorem form_balance {ts : List Token} {n : Node} (h : FormG ts n) : balance ts = 0 := by
  refine FormG.rec (motive_1 := fun ts n _ => balance ts = 0) (motive_2 := fun ts ns _ => balance ts = 0)
    ?_ ?_ ?_ ?_ ?_ ?_ ?_ h
  · intro t h; simp [balance_cons, balance_nil, h, opens]
  · intro t q h; simp [balance_cons, balance_nil, h, opens]
  · intro t s h; simp [balance_cons, balance_nil, h, opens]
  · intro l r ts ns h1 h2 _ ih; simp [balance_cons, balance_nil, balance_append, h1, h2, ih, opens]
  · rfl
  · intro ts us n ns _ _ h1 h2; simp [balance_append, h1, h2]
  · intro q ts us n ns hq _ _ h1 h2; simp [balance_cons, balance_append, h1, h2, hq, opens]

theorem length_balance {t : Token} {n : Node} (h : LengthG t n) : opens t.tok = 0 := by
  cases h with
  | plain d k h => rw [h]; rfl
  | dotted d k h => rw [h]; rfl
  | ms q h => rw [h]; rfl
  | seconds q h => rw [h]; rfl

theorem lengths_balance {ts : List Token} {ns : List Node} (h : LengthsG ts ns) : balance ts = 0 := by
  induction h with
  | done bars h => exact all_balance rfl h
  | tied bars bars' ties tie t n ts ns h1 h2 h3 h4 h5 _ ih =>
    have h6 : opens tie.tok = 0 := by rw [h2]; rfl
    simp [balance_cons, balance_append, all_balance rfl h1, all_balance rfl h3, all_balance rfl h4, h6, length_balance h5, ih]

theorem duration_balance {ts : List Token} {ns : List Node} (h : DurationG ts ns) : balance ts = 0 := by
  cases h with
  | none => rfl
  | some t n ts ns h1 h2 => simp [balance_cons, length_balance h1, lengths_balance h2]

theorem accidentals_balance {ts : List Token} {ns : List Node} (h : AccidentalsG ts ns) : balance ts = 0 := by
  induction h with
  | nil => rfl
  | flat t ts ns h _ ih => simp [balance_cons, h, ih, opens]
  | natural t ts ns h _ ih => simp [balance_cons, h, ih, opens]
  | sharp t ts ns h _ ih => simp [balance_cons, h, ih, opens]

theorem slur_balance {ts : List Token} {ns : List Node} (h : SlurG ts ns) : balance ts = 0 := by
  cases h with
  | none => rfl
  | some t h => simp [balance_cons, balance_nil, h, opens]

theorem note_balance {ts : List Token} {n : Node} (h : NoteG ts n) : balance ts = 0 := by
  cases h with
  | note l c as ds ss an dn sn h1 h2 h3 h4 => simp [balance_cons, balance_append, h1, accidentals_balance h2, duration_balance h3, slur_balance h4, opens]
  | rest l ds dn h1 h2 => simp [balance_cons, h1, duration_balance h2, opens]

theorem octave_balance {ts : List Token} {n : Node} (h : OctaveG ts n) : balance ts = 0 := by
  cases h <;> (rename_i h; simp [balance_cons, balance_nil, h, opens])

theorem between_balance {ts : List Token} {ns : List Node} (h : BetweenG ts ns) : balance ts = 0 := by
  induction h with
  | nil => rfl
  | octave ts us n ns h _ ih => simp [balance_append, octave_balance h, ih]
  | sexp ts us n ns h _ ih => simp [balance_append, form_balance h.1, ih]

theorem chord_balance {ts : List Token} {ns : List Node} (h : ChordG ts ns) : balance ts = 0 := by
  induction h with
  | two ts bs cs us sep n m bn cn h1 h2 h3 h4 h5 =>
    simp [balance_cons, balance_append, note_balance h1, between_balance h2, h3, between_balance h4, note_balance h5, opens]
  | more ts bs cs us sep n bn cn ns h1 h2 h3 h4 _ ih =>
    simp [balance_cons, balance_append, note_balance h1, between_balance h2, h3, between_balance h4, ih, opens]

theorem notes_balance {ts : List Token} {n : Node} (h : NotesG ts n) : balance ts = 0 := by
  cases h with
  | single n h => exact note_balance h
  | chord ns h => exact chord_balance h

theorem repeated_balance {ts us : List Token} {n m : Node} (h : RepeatedG ts n us m) (ht : balance ts = 0) : balance us = 0 := by
  cases h with
  | once => exact ht
  | times t k h => simp [balance_append, balance_cons, balance_nil, ht, h, opens]

theorem events_balance {ts : List Token} {ns : List Node} (h : EventsG ts ns) : balance ts = 0 := by
  refine EventsG.rec (motive_1 := fun ts n _ => balance ts = 0) (motive_2 := fun ts ns _ => balance ts = 0)
    (motive_3 := fun _ ts ns _ => balance ts = 0) (motive_4 := fun ts ns _ => balance ts = 0) (motive_5 := fun ts ns _ => balance ts = 0)
    ?sexp ?octave ?notes ?notesTimes ?notesZero ?barline ?marker ?atMarker ?varRef ?varDef ?seq ?cram ?voices ?nil ?cons
    ?lnil ?lcons ?snil ?scons ?onReps ?last ?ended ?vcons h
  case sexp => intro ts us n m h1 h2; exact repeated_balance h2 (form_balance h1.1)
  case octave => intro ts n h; exact octave_balance h
  case notes => intro ts n h; exact notes_balance h
  case notesTimes => intro ts n t k h h2 _; simp [balance_append, balance_cons, balance_nil, notes_balance h, h2, opens]
  case notesZero => intro ts n t k h h2 _; simp [balance_append, balance_cons, balance_nil, notes_balance h, h2, opens]
  case barline => intro t h; simp [balance_cons, balance_nil, h, opens]
  case marker => intro t _ h; simp [balance_cons, balance_nil, h, opens]
  case atMarker => intro t _ h; simp [balance_cons, balance_nil, h, opens]
  case varRef => intro t us m h h2; exact repeated_balance h2 (by simp [balance_cons, balance_nil, h, opens])
  case varDef => intro t eq ts ns h1 h2 _ _ ih; simp [balance_cons, h1, h2, ih, opens]
  case seq =>
    intro o c ts us ns m h1 h2 _ h3 ih
    exact repeated_balance h3 (by simp [balance_cons, balance_append, balance_nil, h1, h2, ih, opens])
  case cram =>
    intro o c ts ds us ns dn m h1 h2 _ _ h3 h4 ih
    exact repeated_balance h4 (by simp [balance_cons, balance_append, h1, h2, duration_balance h3, ih, opens])
  case voices => intro ts ns _ ih; exact ih
  case nil => rfl
  case lnil => intro _; rfl
  case snil => rfl
  case cons => intro ts us n ns _ _ h1 h2; simp [balance_append, h1, h2]
  case lcons => intro _ ts us n ns _ _ _ h1 h2; simp [balance_append, h1, h2]
  case scons => intro ts us n ns _ _ h1 h2; simp [balance_append, h1, h2]
  case onReps => intro ts us n ns t rs _ h _ h1 h2; simp [balance_append, balance_cons, h, h1, h2, opens]
  case last => intro v k ts ns h _ ih; simp [balance_cons, h, ih, opens]
  case ended => intro v z k ts ns h _ h2 ih; simp [balance_cons, balance_append, balance_nil, h, h2, ih, opens]
  case vcons => intro v k ts us ns vs h _ _ h1 h2; simp [balance_cons, balance_append, h, h1, h2, opens]

theorem names_balance {ts : List Token} {ns : List Node} (h : NamesG ts ns) : balance ts = 0 := by
  induction h with
  | nil => rfl
  | cons s t ts ns h1 h2 _ ih => simp [balance_cons, h1, h2, ih, opens]

theorem part_balance {ts : List Token} {n : Node} (h : PartG ts n) : balance ts = 0 := by
  cases h with
  | implicit ts ns h => exact events_balance h
  | declared t c ts as us ns an es h1 h2 h3 h4 h5 =>
    have : balance as = 0 := by
      cases h3 with
      | none => rfl
      | some t a h => simp [balance_cons, balance_nil, h, opens]
    simp [balance_cons, balance_append, h1, h4, names_balance h2, events_balance h5, this, opens]

theorem program_balance {ts : List Token} {n : Node} (h : ProgramG ts n) : balance ts = 0 := by
  obtain ⟨ns, h, rfl⟩ := h
  induction h with
  | nil => rfl
  | cons ts us n ns h _ ih => simp [balance_append, part_balance h, ih]

/-! ### One text after another -/

theorem scan_tokens {a : List Char} {ts : List Token} (h : scan a = .ok ts) : Ends ts := by
  rcases c29 a with ⟨ts', h1, h2⟩ | ⟨_, _, _, _, h1⟩
  · rw [h1] at h; cases h; exact h2.ends
  · rw [h1] at h; cases h

theorem parse_tokens {a : List Char} {n : Node} (h : parse a = .ok n) : ∃ ts, Scans 0 ⟨1, 1⟩ a ts ∧ Ends ts ∧ parseAST ts = .ok n := by
  unfold parse at h
  split at h
  · cases h
  · rename_i ts hs
    exact ⟨ts, scans_of hs, scan_tokens hs, h⟩

theorem parse_scans {a : List Char} {ts : List Token} {n : Node} (h : Scans 0 ⟨1, 1⟩ a ts) (hp : parseAST ts = .ok n) : parse a = .ok n := by
  have := h.from
  unfold parse scan
  rw [this]
  exact hp

/-- The updates of one text and of another on the lines after it. -/
theorem parse_join {a b : List Char} {nA nB : Node} {usA usB : List Upd} (ha : parse a = .ok nA) (hua : updatesOf nA = .ok usA)
    (hn : a.getLast? = some 'o' → ∃ ts, scan (a ++ ['\n']) = .ok ts) (hb : parse b = .ok nB) (hub : updatesOf nB = .ok usB) (hv : Upd.voice 0 ∉ usB) (hc : Closed usA) :
    ∃ n usA' i usB', parse (a ++ '\n' :: b) = .ok n ∧ updatesOf n = .ok (usA' ++ usB') ∧ AkinL usA usA' ∧ usB = List.replicate i .barline ++ usB' := by
  obtain ⟨T, sT, eT, pT⟩ := parse_tokens ha
  obtain ⟨B, sB, eB, pB⟩ := parse_tokens hb
  obtain ⟨ts, eof, c1, c2, c3⟩ := c30_consumes a nA ha
  have hT : T = ts ++ [eof] := by
    have := sT.from
    unfold scan at c1
    rw [c1] at this
    exact (Except.ok.inj this).symm
  obtain ⟨As, e, e1, e2, e3⟩ := scan_then sT (fun hl => (hn hl).imp fun _ h => scans_of h)
  have hA : ts = As ∧ [eof] = [e] := List.append_inj' (hT.symm.trans e1) rfl
  obtain ⟨rfl, he⟩ := hA
  have lT := line_of_parse eT pT hua
  have lB := line_of_parse eB pB hub
  have hk : ((Pos.mk 1 1).through a).after '\n' = (Pos.mk 1 1).down ((Pos.mk 1 1).through a).line := by
    simp only [Pos.after, Pos.down, if_true]
    rw [Nat.add_comm]
  have sJ := e3 b (B.map (sh ((Pos.mk 1 1).through a).line)) (by rw [program_balance c3, hk]; exact sB.down)
  have contB := (lB.cont eB).down (k := ((Pos.mk 1 1).through a).line)
  have lB' := (lB.down ((Pos.mk 1 1).through a).line)
  have hE : AtEnd [eof] := ⟨eof.text, eof.pos, by rw [← c2]⟩
  obtain ⟨usA', i, usB', k1, k2, k3⟩ := Line.join hE contB (lB'.anywhere rfl hv) lT hT eT (by
    intro t ht u hu
    obtain ⟨u, hu', rfl⟩ := List.mem_map.1 hu
    have h1 := (sT.lines t (hT ▸ List.mem_append_left _ ht)).2
    have h2 := (sB.lines u hu').1
    simp only [sh]
    simp only at h2
    omega) hc
  have eJ : Ends (ts ++ B.map (sh ((Pos.mk 1 1).through a).line)) := scan_tokens (a := a ++ '\n' :: b) sJ.from
  obtain ⟨n, n1, n2⟩ := k3.parsed eJ
  exact ⟨n, usA', i, usB', parse_scans sJ n1, n2, k1, k2⟩

end Syn
end Alda
