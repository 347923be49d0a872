import Verif.Player.Wire
/-!
C76: what the client writes into a message, the player reads out of it.
-/
namespace Alda
namespace Player

/-- The numbers that an OSC integer can hold. -/
def Fits32 (i : Int) : Prop := -2147483648 ≤ i ∧ i ≤ 2147483647

/-- The instruction with its tempo as a `float32`. -/
def single (f32 : Rat → Rat) : Instr → Instr
  | .score (.tempo o v) => .score (.tempo o (f32 v))
  | i => i

/-- An instruction whose numbers can be written: 32 bits, tracks not negative. -/
def Writable : Instr → Prop
  | .ping | .stop | .exportTo _ | .score .play => True
  | .score (.shutdown o) | .offset o | .score (.tempo o _) => Fits32 o
    | .score (.patch t c o v) | .score (.volume t c o v) | .score (.panning t c o v) =>
    (0 ≤ t ∧ Fits32 t) ∧ Fits32 c ∧ Fits32 o ∧ Fits32 v
  | .score (.note t c o n d a v) =>
    (0 ≤ t ∧ Fits32 t) ∧ Fits32 c ∧ Fits32 o ∧ Fits32 n ∧ Fits32 d ∧ Fits32 a ∧ Fits32 v

theorem int32_of_fits {i : Int} (h : Fits32 i) : int32 i = i := by
  unfold int32 Int.bmod; unfold Fits32 at h
  simp only []
  split <;> omega

theorem int32_fits (i : Int) : Fits32 (int32 i) := by
  unfold int32 Int.bmod Fits32
  simp only []
  split <;> omega

theorem takeWhile_digits (n : Nat) (r : List Char) (hr : ∀ c ∈ r.head?, c.isDigit = false) :
    (Nat.toDigits 10 n ++ r).takeWhile Char.isDigit = Nat.toDigits 10 n ∧ (Nat.toDigits 10 n ++ r).dropWhile Char.isDigit = r := by
  have hd : ∀ c ∈ Nat.toDigits 10 n, c.isDigit = true := fun c hc => Nat.isDigit_of_mem_toDigits (by decide) (by decide) hc
  generalize Nat.toDigits 10 n = ds at hd
  induction ds with
  | nil => cases r with
    | nil => simp
    | cons c r => simp [hr c (by simp)]
  | cons c ds ih =>
    have := ih (fun c hc => hd c (List.mem_cons_of_mem _ hc))
    simp [hd c (by simp), this.1, this.2]

theorem trackAddress_nat (n : Nat) (h : n ≤ 2147483647) (rest : String) :
    trackAddress n rest = "/track/".toList ++ (Nat.toDigits 10 n ++ rest.toList) := by
  unfold trackAddress
  rw [int32_of_fits (by unfold Fits32; omega)]
  rfl

theorem second_ne {a b : List Char} (h : a[1]? ≠ b[1]?) : a ≠ b := fun e => h (by rw [e])

theorem isTrack_trackAddress (n : Nat) (h : n ≤ 2147483647) (rest other : String) (hr : rest.toList.head? = some '/') :
    isTrack other (trackAddress n rest) = decide (rest.toList = other.toList) := by
  rw [trackAddress_nat n h]
  obtain ⟨h1, h2⟩ := takeWhile_digits n rest.toList (by rw [hr]; intro c hc; cases hc; decide)
  have ha : after "/track/" ("/track/".toList ++ (Nat.toDigits 10 n ++ rest.toList)) = some (Nat.toDigits 10 n ++ rest.toList) := by
    simp only [after, List.take_left, List.drop_left, if_pos]
  have hn : Nat.toDigits 10 n ≠ [] := Nat.toDigits_ne_nil
  simp only [isTrack, ha, h1, h2, hn, ne_eq, not_false_eq_true, decide_true, Bool.true_and]

theorem trackNumber_trackAddress (n : Nat) (h : n ≤ 2147483647) (rest : String) (hr : rest.toList.head? = some '/') :
    trackNumber (trackAddress n rest) = some (n : Int) := by
  rw [trackAddress_nat n h]
  obtain ⟨h1, -⟩ := takeWhile_digits n rest.toList (by rw [hr]; intro c hc; cases hc; decide)
  have hd : ("/track/".toList ++ (Nat.toDigits 10 n ++ rest.toList)).drop 7 = Nat.toDigits 10 n ++ rest.toList := rfl
  have := Nat.ofDigitChars_toDigits (b := 10) (n := n) (by decide) (by decide)
  simp only [trackNumber, hd, h1, this, if_pos h]

theorem trackAddress_second (t : Int) (rest : String) : (trackAddress t rest)[1]? = some 't' := rfl

/-- An address for a track is none of the others. -/
theorem read_track (n : Nat) (hn : n ≤ 2147483647) (rest : String) (hr : rest.toList.head? = some '/') (args : List Arg) :
    read ⟨trackAddress n rest, args⟩ =
      (let m : Osc := ⟨trackAddress n rest, args⟩
      if rest.toList = "/clear".toList then some (.trackClear n)
      else if rest.toList = "/midi/patch".toList then do return .instr (.score (.patch n (← m.int 0) (← m.int 1) (← m.int 2)))
      else if rest.toList = "/midi/note".toList then do
        return .instr (.score (.note n (← m.int 0) (← m.int 1) (← m.int 2) (← m.int 3) (← m.int 4) (← m.int 5)))
      else if rest.toList = "/midi/volume".toList then do return .instr (.score (.volume n (← m.int 0) (← m.int 1) (← m.int 2)))
      else if rest.toList = "/midi/panning".toList then do return .instr (.score (.panning n (← m.int 0) (← m.int 1) (← m.int 2)))
      else read m) := by
  have hne : ∀ b : List Char, b[1]? ≠ some 't' → trackAddress n rest ≠ b := fun b hb => second_ne (by rw [trackAddress_second]; exact hb.symm)
  have e1 := hne "/ping".toList (by decide)
  have e2 := hne "/system/shutdown".toList (by decide)
  have e3 := hne "/system/play".toList (by decide)
  have e4 := hne "/system/stop".toList (by decide)
  have e5 := hne "/system/offset".toList (by decide)
  have e6 := hne "/system/clear".toList (by decide)
  have e7 := hne "/system/tempo".toList (by decide)
  have e8 := hne "/system/midi/export".toList (by decide)
  have ht := isTrack_trackAddress n hn rest
  have hk := trackNumber_trackAddress n hn rest hr
  simp only []
  by_cases c1 : rest.toList = "/clear".toList
  · rw [if_pos c1, read]
    simp only [e1, e2, e3, e4, e5, e6, e7, e8, if_false, ht _ hr, c1, decide_true, if_true, hk]
    rfl
  rw [if_neg c1]
  by_cases c2 : rest.toList = "/midi/patch".toList
  · rw [if_pos c2, read]
    simp only [e1, e2, e3, e4, e5, e6, e7, e8, if_false, ht _ hr, c2, decide_true, decide_eq_true_eq, if_true, hk]
    rfl
  rw [if_neg c2]
  by_cases c3 : rest.toList = "/midi/note".toList
  · rw [if_pos c3, read]
    simp only [e1, e2, e3, e4, e5, e6, e7, e8, if_false, ht _ hr, decide_eq_true_eq, c3, if_true, hk]
    rfl
  rw [if_neg c3]
  by_cases c4 : rest.toList = "/midi/volume".toList
  · rw [if_pos c4, read]
    simp only [e1, e2, e3, e4, e5, e6, e7, e8, if_false, ht _ hr, decide_eq_true_eq, c4, if_true, hk]
    rfl
  rw [if_neg c4]
  by_cases c5 : rest.toList = "/midi/panning".toList
  · rw [if_pos c5, read]
    simp only [e1, e2, e3, e4, e5, e6, e7, e8, if_false, ht _ hr, decide_eq_true_eq, c5, if_true, hk]
    rfl
  rw [if_neg c5]

theorem read_patch (n : Nat) (hn : n ≤ 2147483647) (c o v : Int) :
    read ⟨trackAddress n "/midi/patch", [.int c, .int o, .int v]⟩ = some (.instr (.score (.patch n c o v))) := by
  rw [read_track n hn _ (by decide)]
  simp only []
  rw [if_neg (by decide), if_pos trivial]
  rfl

theorem read_note (n : Nat) (hn : n ≤ 2147483647) (c o k d a v : Int) :
    read ⟨trackAddress n "/midi/note", [.int c, .int o, .int k, .int d, .int a, .int v]⟩ = some (.instr (.score (.note n c o k d a v))) := by
  rw [read_track n hn _ (by decide)]
  simp only []
  rw [if_neg (by decide), if_neg (by decide), if_pos trivial]
  rfl

theorem read_volume (n : Nat) (hn : n ≤ 2147483647) (c o v : Int) :
    read ⟨trackAddress n "/midi/volume", [.int c, .int o, .int v]⟩ = some (.instr (.score (.volume n c o v))) := by
  rw [read_track n hn _ (by decide)]
  simp only []
  rw [if_neg (by decide), if_neg (by decide), if_neg (by decide), if_pos trivial]
  rfl

theorem read_panning (n : Nat) (hn : n ≤ 2147483647) (c o v : Int) :
    read ⟨trackAddress n "/midi/panning", [.int c, .int o, .int v]⟩ = some (.instr (.score (.panning n c o v))) := by
  rw [read_track n hn _ (by decide)]
  simp only []
  rw [if_neg (by decide), if_neg (by decide), if_neg (by decide), if_neg (by decide), if_pos trivial]
  rfl

theorem read_offset (o : Int) : read ⟨"/system/offset".toList, [.int o]⟩ = some (.instr (.offset o)) := rfl

theorem read_shutdown (o : Int) : read ⟨"/system/shutdown".toList, [.int o]⟩ = some (.instr (.score (.shutdown o))) := rfl

theorem read_tempo (o : Int) (v : Rat) : read ⟨"/system/tempo".toList, [.int o, .float v]⟩ = some (.instr (.score (.tempo o v))) := rfl

theorem read_export (f : String) : read ⟨"/system/midi/export".toList, [.str f]⟩ = some (.instr (.exportTo f)) := rfl

theorem read_ping : read ⟨"/ping".toList, []⟩ = some (.instr .ping) := by decide +kernel

theorem read_stop : read ⟨"/system/stop".toList, []⟩ = some (.instr .stop) := by decide +kernel

theorem read_play : read ⟨"/system/play".toList, []⟩ = some (.instr (.score .play)) := by decide +kernel

/-- Whatever the client tells a player (a note, an instrument, a volume, a tempo, to play, to stop, to write a file, to end), the player understands just that, provided that the numbers fit into 32 bits. -/
theorem c76_understood (f32 : Rat → Rat) (i : Instr) (h : Writable i) : read (write f32 i) = some (.instr (single f32 i)) := by
  have nat : ∀ t : Int, 0 ≤ t → Fits32 t → ∃ n : Nat, t = n ∧ n ≤ 2147483647 := fun t h0 hf => ⟨t.toNat, by omega, by unfold Fits32 at hf; omega⟩
  cases i with
  | ping => exact read_ping
  | stop => exact read_stop
  | exportTo f => exact read_export f
  | offset o =>
    simp only [Writable] at h
    unfold write single; dsimp only
    rw [int32_of_fits h]
    exact read_offset o
  | score m =>
    cases m with
    | play => exact read_play
    | shutdown o =>
      simp only [Writable] at h
      unfold write single; dsimp only
      rw [int32_of_fits h]
      exact read_shutdown o
    | tempo o v =>
      simp only [Writable] at h
      unfold write single; dsimp only
      rw [int32_of_fits h]
      exact read_tempo o (f32 v)
    | patch t c o v =>
      obtain ⟨⟨h0, ht⟩, hc, ho, hv⟩ := h
      obtain ⟨n, rfl, hn⟩ := nat t h0 ht
      unfold write single; dsimp only
      rw [int32_of_fits hc, int32_of_fits ho, int32_of_fits hv]
      exact read_patch n hn c o v
    | volume t c o v =>
      obtain ⟨⟨h0, ht⟩, hc, ho, hv⟩ := h
      obtain ⟨n, rfl, hn⟩ := nat t h0 ht
      unfold write single; dsimp only
      rw [int32_of_fits hc, int32_of_fits ho, int32_of_fits hv]
      exact read_volume n hn c o v
    | panning t c o v =>
      obtain ⟨⟨h0, ht⟩, hc, ho, hv⟩ := h
      obtain ⟨n, rfl, hn⟩ := nat t h0 ht
      unfold write single; dsimp only
      rw [int32_of_fits hc, int32_of_fits ho, int32_of_fits hv]
      exact read_panning n hn c o v
    | note t c o k d a v =>
      obtain ⟨⟨h0, ht⟩, hc, ho, hk, hd, ha, hv⟩ := h
      obtain ⟨n, rfl, hn⟩ := nat t h0 ht
      unfold write single; dsimp only
      rw [int32_of_fits hc, int32_of_fits ho, int32_of_fits hk, int32_of_fits hd, int32_of_fits ha, int32_of_fits hv]
      exact read_note n hn c o k d a v

example : Writable (.score (.note 1 0 500 60 500 450 69)) ∧
    write id (.score (.note 12 0 500 60 500 450 69)) = ⟨"/track/12/midi/note".toList, [.int 0, .int 500, .int 60, .int 500, .int 450, .int 69]⟩ ∧
    read ⟨"/track/12/midi/note".toList, [.int 0, .int 500, .int 60, .int 500, .int 450, .int 69]⟩ =
      some (.instr (.score (.note 12 0 500 60 500 450 69))) := by
  refine ⟨by simp [Writable, Fits32], by decide +kernel, by decide +kernel⟩

theorem instructionsAll_messages (ms : List Osc) : instructionsAll (ms.map .message) = ms := by
  induction ms with
  | nil => rfl
  | cons m ms ih => simp [instructionsAll, instructions, ih]

/-- A whole bundle is read as the instructions that were put into it, in the same order. -/
theorem c76_bundle (f32 : Rat → Rat) (is : List Instr) (h : ∀ i ∈ is, Writable i) :
    (instructions (writeBundle f32 is)).map read = is.map (fun i => some (.instr (single f32 i))) ∧
      readPacket (writeBundle f32 is) = parseUpdates (is.map (single f32)) := by
  have hl : instructions (writeBundle f32 is) = is.map (write f32) := by
    have : is.map (fun i => OscPacket.message (write f32 i)) = (is.map (write f32)).map .message := by simp
    rw [writeBundle, this, instructions, instructionsAll_messages]
  refine ⟨?_, ?_⟩
  · rw [hl, List.map_map]
    exact List.map_congr_left fun i hi => c76_understood f32 i (h i hi)
  · unfold readPacket parseUpdates
    rw [hl]
    generalize ({} : Updates) = u
    induction is generalizing u with
    | nil => rfl
    | cons i is ih =>
      simp only [List.map_cons, List.foldl_cons, Updates.readMessage, c76_understood f32 i (h i (by simp))]
      exact ih (fun j hj => h j (List.mem_cons_of_mem _ hj)) (by
        unfold writeBundle
        simp only [instructions]
        have : is.map (fun i => OscPacket.message (write f32 i)) = (is.map (write f32)).map .message := by simp
        rw [this, instructionsAll_messages]) _

theorem instructionsAll_append (xs ys : List OscPacket) : instructionsAll (xs ++ ys) = instructionsAll xs ++ instructionsAll ys := by
  induction xs with
  | nil => rfl
  | cons p ps ih => simp [instructionsAll, ih]

/-- Bundles within bundles make no difference: what counts is the messages in their order. -/
theorem c76_nested (before inner after_ : List OscPacket) : readPacket (.bundle (before ++ .bundle inner :: after_)) = readPacket (.bundle (before ++ inner ++ after_)) := by
  simp only [readPacket, instructions, instructionsAll_append, instructionsAll, List.append_assoc]

/-- A message that is not understood changes nothing: the others are read as without it. -/
theorem c76_ignored (before after_ : List OscPacket) (m : Osc) (h : read m = none) :
    readPacket (.bundle (before ++ .message m :: after_)) = readPacket (.bundle (before ++ after_)) := by
  simp only [readPacket, instructions, instructionsAll_append, instructionsAll, List.foldl_append, List.foldl_cons, List.cons_append, List.nil_append]
  simp only [Updates.readMessage, h]

/-- No such address; an argument missing; an argument of another kind; a track number that is too large. -/
example : read ⟨"/track/1/midi/pitch".toList, [.int 0]⟩ = none ∧ read ⟨"/system/offset".toList, []⟩ = none ∧ read ⟨"/system/tempo".toList, [.int 0, .int 120]⟩ = none ∧
    read ⟨"/track/2147483648/clear".toList, []⟩ = none ∧ read ⟨"/track/2147483647/clear".toList, []⟩ = some (.trackClear 2147483647) := by decide +kernel

end Player
end Alda
