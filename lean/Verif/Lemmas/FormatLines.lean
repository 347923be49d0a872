import Verif.Lemmas.FormatStream
/-!
Events without a place where a new line must begin stay on one line inside a definition.
-/
namespace Alda
namespace Syn
open Spec Tree

/-- No piece contains a newline, or asks for one. -/
def Flat (is : List Item) : Prop := ∀ i ∈ is, ∃ g text ks, i = .t g text ks ∧ '\n' ∉ text

theorem Flat.append {a b : List Item} (ha : Flat a) (hb : Flat b) : Flat (a ++ b) := fun i hi => by
  rcases List.mem_append.1 hi with h | h
  · exact ha i h
  · exact hb i h

theorem flat_nil : Flat [] := fun _ h => by simp at h

theorem flat_cons {g : Bool} {text : List Char} {ks : List Kind} {is : List Item} (h : '\n' ∉ text) (hs : Flat is) : Flat (.t g text ks :: is) := fun i hi => by
  rcases List.mem_cons.1 hi with rfl | h'
  · exact ⟨g, text, ks, rfl, h⟩
  · exact hs i h'

theorem Flat.stays : ∀ {is : List Item}, Flat is → ∀ {L L' : Nat} {o' : Bool} {us : List Token}, Stream L false (glueAll is) us L' o' → L' = L ∧ o' = false := by
  intro is
  induction is with
  | nil => intro _ L L' o' us h; cases h; exact ⟨rfl, rfl⟩
  | cons i is ih =>
    intro hf L L' o' us h
    obtain ⟨g, text, ks, rfl, hn⟩ := hf i (List.mem_cons_self ..)
    simp only [glueAll] at h
    cases h with
    | text _ _ _ _ _ _ u us ts L2 _ _ a1 a2 a3 a4 a5 a6 h =>
      obtain ⟨e1, e2⟩ := ih (fun j hj => hf j (List.mem_cons_of_mem _ hj)) h
      rw [a6 hn, a3 rfl] at e1
      exact ⟨e1, e2⟩

theorem digitChar_ne_newline (n : Nat) : digitChar n ≠ '\n' := by
  have key : ∀ k : Nat, 48 ≤ k → (Char.ofNat k).toNat ≠ 10 := by
    intro k hk
    unfold Char.ofNat
    split
    · show k ≠ 10
      omega
    · decide
  intro e
  have h := congrArg Char.toNat e
  exact key (48 + n) (by omega) h

theorem natDigits_flat (n : Nat) : '\n' ∉ natDigits n := fun h => absurd (natDigits_digits n _ h) (by decide)

theorem fracDigits_flat : ∀ (k : Nat) (x : Rat), '\n' ∉ fracDigits k x
  | 0, _ => by simp [fracDigits]
  | k + 1, x => by
    unfold fracDigits
    split
    · simp
    · intro h
      rcases List.mem_cons.1 h with h | h
      · exact digitChar_ne_newline _ h.symm
      · exact fracDigits_flat k _ h

theorem formatUnsigned_flat (x : Rat) : '\n' ∉ formatUnsigned x := by
  unfold formatUnsigned
  simp only
  split
  · exact natDigits_flat _
  · intro h
    rcases List.mem_append.1 h with h | h
    · exact natDigits_flat _ h
    · rcases List.mem_cons.1 h with h | h
      · simp at h
      · exact fracDigits_flat _ _ h

theorem formatFloat_flat (x : Rat) : '\n' ∉ formatFloat x := by
  unfold formatFloat
  split
  · intro h
    rcases List.mem_cons.1 h with h | h
    · simp at h
    · exact formatUnsigned_flat _ h
  · exact formatUnsigned_flat _

theorem Comp.text_flat (c : Comp) : '\n' ∉ c.text := by
  cases c with
  | bar => simp [Comp.text]
  | len d dots =>
    simp only [Comp.text, List.mem_append, not_or]
    exact ⟨formatFloat_flat d, fun h => absurd (List.eq_of_mem_replicate h) (by decide)⟩
  | ms q =>
    simp only [Comp.text, List.mem_append, not_or]
    exact ⟨formatFloat_flat q, by decide⟩
  | sec q =>
    simp only [Comp.text, List.mem_append, not_or]
    exact ⟨formatFloat_flat q, by decide⟩

theorem tieText_flat (b : Bool) : '\n' ∉ tieText b := by cases b <;> decide

theorem piece_flat {text : List Char} (ks : List Kind) (h : '\n' ∉ text) : Flat (piece text ks) := by
  unfold piece
  split
  · exact flat_nil
  · exact flat_cons h flat_nil

theorem durItems_flat (slur : Bool) : ∀ (cs : List Comp) (text : List Char) (ks : List Kind) (b : Bool), '\n' ∉ text → Flat (durItems slur cs text ks b)
  | [], text, ks, b, h => by
    simp only [durItems]
    split
    · exact flat_nil
    · exact flat_cons (by simp [h, tieText_flat]) flat_nil
  | c :: cs, text, ks, b, h => by
    simp only [durItems]
    split
    · refine Flat.append ?_ (flat_cons (by decide) (durItems_flat slur cs _ _ _ (by simp)))
      split
      · exact piece_flat _ (by simp [h, tieText_flat])
      · exact piece_flat _ h
    · exact durItems_flat slur cs _ _ _ (by simp [h, tieText_flat, Comp.text_flat])

theorem nameChar_flat {s : String} (h : ∀ c ∈ s.toList, NameChar c) : '\n' ∉ s.toList := fun hn => by
  rcases h _ hn with h | h | h
  all_goals exact absurd h (by decide)

theorem isName_flat {s : String} (h : isName s) : '\n' ∉ s.toList := by
  obtain ⟨a, b, cs, e, ha, hb, hc⟩ := h
  refine nameChar_flat fun c hm => ?_
  rw [e] at hm
  simp only [List.mem_cons] at hm
  rcases hm with rfl | rfl | hm
  · exact Or.inl ha
  · exact Or.inl hb
  · exact hc c hm

mutual
theorem Form.text_flat : ∀ (f : Form), f.ok → f.oneLine = true → '\n' ∉ f.text
  | .sym s, h, _ => by
    obtain ⟨c, cs, e, _, _, hc⟩ := h
    simp only [Form.text]
    rw [e]
    intro hm
    exact absurd (by decide) (hc _ hm)
  | .num q, _, _ => by simpa only [Form.text] using formatFloat_flat q
  | .str s, _, ho => by
    simp only [Form.oneLine, Bool.not_eq_true', List.contains_eq_mem, decide_eq_false_iff_not] at ho
    simp only [Form.text, List.mem_cons, List.mem_append, not_or]
    exact ⟨by decide, ho, by decide, by simp⟩
  | .list fs, h, ho => by
    simp only [Form.text, List.mem_cons, List.mem_append, not_or]
    exact ⟨by decide, formTexts_flat fs (by simpa only [Form.ok] using h) (by simpa only [Form.oneLine] using ho), by decide, by simp⟩
  | .quoted f, h, ho => by
    simp only [Form.ok] at h
    simp only [Form.text, List.mem_cons, not_or]
    exact ⟨by decide, Form.text_flat f h.1 (by simpa only [Form.oneLine] using ho)⟩
theorem formTexts_flat : ∀ (fs : List Form), formsOk fs → formsOneLine fs = true → '\n' ∉ formTexts fs
  | [], _, _ => by simp [formTexts]
  | f :: fs, h, ho => by
    simp only [formsOk] at h
    simp only [formsOneLine, Bool.and_eq_true] at ho
    simp only [formTexts, List.mem_append, not_or]
    refine ⟨Form.text_flat f h.1 ho.1, ?_⟩
    split
    · simp
    · simp only [List.mem_cons, not_or]
      exact ⟨by decide, formTexts_flat fs h.2 ho.2⟩
end

theorem accs_flat (accs : List Accidental) : '\n' ∉ accs.map accChar := by
  intro h
  obtain ⟨a, _, e⟩ := List.mem_map.1 h
  cases a <;> exact absurd e (by decide)

theorem rangeText_flat (r : Nat × Nat) : '\n' ∉ rangeText r := by
  unfold rangeText
  split
  · exact natDigits_flat _
  · simp [natDigits_flat]

theorem joinWith_flat {c : Char} (hc : c ≠ '\n') : ∀ (ts : List (List Char)), (∀ t ∈ ts, '\n' ∉ t) → '\n' ∉ joinWith c ts
  | [], _ => by simp [joinWith]
  | [t], h => by simpa [joinWith] using h
  | t :: t' :: ts, h => by
    have := joinWith_flat hc (t' :: ts) (fun x hx => h x (List.mem_cons_of_mem _ hx))
    simp only [joinWith, List.mem_append, List.mem_cons, not_or]
    exact ⟨h t (List.mem_cons_self ..), fun e => hc e.symm, this⟩

theorem note_flat {c : Char} (h : c ∈ ['a', 'b', 'c', 'd', 'e', 'f', 'g']) : '\n' ≠ c := by
  rintro rfl
  exact absurd h (by decide)

mutual
theorem Ev.items_flat : ∀ (e : Ev), e.ok → e.oneLine = true → Flat e.items
  | .note c accs d slur, h, _ => by
    simp only [Ev.ok] at h
    simp only [Ev.items]
    exact durItems_flat _ _ _ _ _ (by simp only [List.mem_cons, not_or]; exact ⟨note_flat h.1, accs_flat _⟩)
  | .rest d, _, _ => by simp only [Ev.items]; exact durItems_flat _ _ _ _ _ (by decide)
  | .chord es, h, ho => by
    simp only [Ev.ok] at h
    simp only [Ev.oneLine] at ho
    simp only [Ev.items]
    exact chordItems_flat es h.1 ho
  | .up, _, _ => flat_cons (by decide) flat_nil
  | .down, _, _ => flat_cons (by decide) flat_nil
  | .oct n, _, _ => by simp only [Ev.items]; exact flat_cons (by simp [natDigits_flat]) flat_nil
  | .bar, _, _ => flat_cons (by decide) flat_nil
  | .marker s, h, _ => by
    simp only [Ev.ok] at h
    simp only [Ev.items]; exact flat_cons (by simp [nameChar_flat h.2]) flat_nil
  | .at s, h, _ => by
    simp only [Ev.ok] at h
    simp only [Ev.items]; exact flat_cons (by simp [nameChar_flat h.2]) flat_nil
  | .ref s, h, _ => by
    simp only [Ev.ok] at h
    simp only [Ev.items]; exact flat_cons (isName_flat h) flat_nil
  | .defn _ _, _, ho => by simp [Ev.oneLine] at ho
  | .sexp fs, h, ho => by
    simp only [Ev.ok] at h
    simp only [Ev.oneLine] at ho
    simp only [Ev.items]
    exact flat_cons (by simp [formTexts_flat fs h ho]) flat_nil
  | .seq es, h, ho => by
    simp only [Ev.ok] at h
    simp only [Ev.oneLine] at ho
    simp only [Ev.items]
    exact (flat_cons (by decide) (items_flat es h.1 ho)).append (flat_cons (by decide) flat_nil)
  | .cram es d, h, ho => by
    simp only [Ev.ok] at h
    simp only [Ev.oneLine] at ho
    simp only [Ev.items]
    exact (flat_cons (by decide) (items_flat es h.2.1 ho)).append (durItems_flat _ _ _ _ _ (by decide))
  | .voice n es, h, ho => by
    simp only [Ev.ok] at h
    simp only [Ev.oneLine] at ho
    simp only [Ev.items]
    exact flat_cons (by simp [natDigits_flat]) (items_flat es h.2.1 ho)
  | .voiceEnd, _, _ => flat_cons (by decide) flat_nil
  | .group vs, h, ho => by
    simp only [Ev.ok] at h
    simp only [Ev.oneLine] at ho
    simp only [Ev.items]
    exact items_flat vs h.2.1 ho
  | .rep e n, h, ho => by
    simp only [Ev.ok] at h
    simp only [Ev.oneLine] at ho
    simp only [Ev.items]
    exact (Ev.items_flat e h.1 ho).append (flat_cons (by simp [natDigits_flat]) flat_nil)
  | .onReps e rs, h, ho => by
    simp only [Ev.ok] at h
    simp only [Ev.oneLine] at ho
    simp only [Ev.items]
    refine (Ev.items_flat e h.1 ho).append (flat_cons ?_ flat_nil)
    simp only [rangesText, List.mem_cons, not_or]
    refine ⟨by decide, joinWith_flat (by decide) _ fun t ht => ?_⟩
    obtain ⟨r, _, rfl⟩ := List.mem_map.1 ht
    exact rangeText_flat r
theorem items_flat : ∀ (es : List Ev), allOk es → allOneLine es = true → Flat (items es)
  | [], _, _ => flat_nil
  | e :: es, h, ho => by
    simp only [allOk] at h
    simp only [allOneLine, Bool.and_eq_true] at ho
    simp only [items]
    exact (Ev.items_flat e h.1 ho.1).append (items_flat es h.2 ho.2)
theorem chordItems_flat : ∀ (es : List Ev), allOk es → allOneLine es = true → Flat (chordItems es)
  | [], _, _ => flat_nil
  | e :: es, h, ho => by
    simp only [allOk] at h
    simp only [allOneLine, Bool.and_eq_true] at ho
    simp only [chordItems]
    refine (Ev.items_flat e h.1 ho.1).append (Flat.append ?_ (chordItems_flat es h.2 ho.2))
    split
    · exact flat_cons (by decide) flat_nil
    · exact flat_nil
end

end Syn
end Alda
