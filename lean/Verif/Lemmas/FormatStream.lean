import Verif.Lemmas.FormatRun
/-!
The tokens of the formatter's output, with what is known about their lines.
-/
namespace Alda
namespace Syn
open Spec Tree

/-- The tokens of the pieces. `L` is the line where the text before ends; if `o`, then the next token is on a later line. -/
inductive Stream : Nat → Bool → List Item → List Token → Nat → Bool → Prop where
  | nil (L : Nat) (o : Bool) : Stream L o [] [] L o
  | brk (L : Nat) (o : Bool) (is : List Item) (ts : List Token) (L' : Nat) (o' : Bool) : Stream L true is ts L' o' → Stream L o (.brk :: is) ts L' o'
  | text (L : Nat) (o : Bool) (glue : Bool) (text : List Char) (ks : List Kind) (is : List Item) (u : Token) (us ts : List Token) (L2 L' : Nat) (o' : Bool) :
      kindsOf (u :: us) = ks → L ≤ u.pos.line → (glue = true → u.pos.line = L) → (o = true → L < u.pos.line) → u.pos.line ≤ L2 →
      ('\n' ∉ text → L2 = u.pos.line) → Stream L2 false is ts L' o' → Stream L o (.t glue text ks :: is) (u :: us ++ ts) L' o'

theorem line_through : ∀ (cs : List Char) (pos : Pos), pos.line ≤ (pos.through cs).line ∧ ('\n' ∉ cs → (pos.through cs).line = pos.line)
  | [], _ => ⟨Nat.le_refl _, fun _ => rfl⟩
  | c :: cs, pos => by
    obtain ⟨h1, h2⟩ := line_through cs (pos.after c)
    rw [through_cons]
    unfold Pos.after at *
    split at h1
    · rename_i hc
      simp only [hc, if_true] at *
      exact ⟨by omega, by simp⟩
    · rename_i hc
      simp only [hc, if_false] at *
      exact ⟨h1, fun h => h2 (by simp at h; exact h.2)⟩

theorem Layout.sep {is : List Item} {cs : List Char} {g : Before} (h : Layout .word is cs g) : Sep cs := by
  intro c cs' e
  cases h with
  | nil => simp at e
  | blank _ d _ _ _ _ hw _ => injection e with e _; rw [← e]; exact hw rfl
  | text _ _ _ _ _ _ _ hg => exact absurd rfl hg

theorem Layout.stream {g g' : Before} {is : List Item} {cs : List Char} (h : Layout g is cs g') : (∀ i ∈ is, TextOk i) →
    ∀ (pos : Pos) (L : Nat) (o : Bool), (g = .newline → L < pos.line) → (g ≠ .newline → L = pos.line) → (o = true → g = .newline) →
    ∃ ts L' o' epos, Scans 0 pos cs (ts ++ [⟨.eof, [], epos⟩]) ∧ Stream L o is ts L' o' := by
  induction h with
  | nil g =>
    intro _ pos L o _ _ _
    exact ⟨[], L, o, pos, Scans.nil 0 pos, .nil L o⟩
  | blank g c is cs g' hb hw _ ih =>
    intro hok pos L o h1 h2 h3
    have a1 : g.blank c = .newline → L < (pos.after c).line := by
      intro hg
      by_cases hn : g = .newline
      · have := h1 hn
        unfold Pos.after
        split
        · show L < pos.line + 1; omega
        · exact this
      · have := h2 hn
        simp only [Before.blank, hn, or_false] at hg
        split at hg
        · rename_i hc
          unfold Pos.after
          rw [if_pos hc]; show L < pos.line + 1; omega
        · simp at hg
    have a2 : g.blank c ≠ .newline → L = (pos.after c).line := by
      intro hg
      simp only [Before.blank] at hg
      split at hg
      · exact absurd rfl hg
      · rename_i hc
        simp only [not_or] at hc
        unfold Pos.after
        rw [if_neg hc.1]; exact h2 hc.2
    have a3 : o = true → g.blank c = .newline := by
      intro ho
      simp [Before.blank, h3 ho]
    obtain ⟨ts, L', o', epos, hs, hst⟩ := ih hok (pos.after c) L o a1 a2 a3
    exact ⟨ts, L', o', epos, Scans.blank hb hs, hst⟩
  | brk is cs g' _ ih =>
    intro hok pos L o h1 h2 h3
    obtain ⟨ts, L', o', epos, hs, hst⟩ := ih (fun i hi => hok i (List.mem_cons_of_mem _ hi)) pos L true h1 h2 (fun _ => rfl)
    exact ⟨ts, L', o', epos, hs, .brk _ _ _ _ _ _ hst⟩
  | text g glue t ks is cs g' hg hgl hl ih =>
    intro hok pos L o h1 h2 h3
    obtain ⟨ht0, hk0, htok⟩ := hok _ (List.mem_cons_self ..)
    obtain ⟨ts, L', o', epos, hs, hst⟩ := ih (fun i hi => hok i (List.mem_cons_of_mem _ hi)) (pos.through t) (pos.through t).line false (by simp) (by simp) (by simp)
    obtain ⟨us, hk, hsc, hp⟩ := htok cs hl.sep pos _ hs
    cases us with
    | nil => exact absurd (by rw [← hk]; rfl) hk0
    | cons u us =>
      have hu : u.pos = pos := hp u (by simp)
      obtain ⟨l1, l2⟩ := line_through t pos
      refine ⟨u :: us ++ ts, L', o', epos, by rw [List.append_assoc]; exact hsc, .text L o glue t ks is u us ts (pos.through t).line L' o' hk ?_ ?_ ?_ ?_ ?_ hst⟩
      · rw [hu]
        by_cases hn : g = .newline
        · exact Nat.le_of_lt (h1 hn)
        · exact Nat.le_of_eq (h2 hn)
      · intro hh
        rw [hu]
        exact (h2 (by rw [hgl hh]; simp)).symm
      · intro ho
        rw [hu]; exact h1 (h3 ho)
      · rw [hu]; exact l1
      · intro hn; rw [hu]; exact l2 hn

theorem Stream.split {L L' : Nat} {o o' : Bool} : ∀ {is is' : List Item} {ts : List Token}, Stream L o (is ++ is') ts L' o' →
    ∃ ts1 ts2 L1 o1, ts = ts1 ++ ts2 ∧ Stream L o is ts1 L1 o1 ∧ Stream L1 o1 is' ts2 L' o' := by
  intro is
  induction is generalizing L o with
  | nil => intro is' ts h; exact ⟨[], ts, L, o, rfl, .nil L o, h⟩
  | cons i is ih =>
    intro is' ts h
    rw [List.cons_append] at h
    cases h with
    | brk _ _ _ _ _ _ h =>
      obtain ⟨ts1, ts2, L1, o1, e, h1, h2⟩ := ih h
      exact ⟨ts1, ts2, L1, o1, e, .brk _ _ _ _ _ _ h1, h2⟩
    | text _ _ glue text ks _ u us ts L2 _ _ a1 a2 a3 a4 a5 a6 h =>
      obtain ⟨ts1, ts2, L1, o1, e, h1, h2⟩ := ih h
      exact ⟨u :: us ++ ts1, ts2, L1, o1, by rw [e, List.append_assoc], .text _ _ _ _ _ _ _ _ _ _ _ _ a1 a2 a3 a4 a5 a6 h1, h2⟩

theorem Stream.loosen {L L' : Nat} {o o' : Bool} {is is' : List Item} {ts : List Token} (h : Stream L o is ts L' o') (hl : Looser is is') :
    Stream L o is' ts L' o' := by
  induction h generalizing is' with
  | nil => cases hl; exact .nil _ _
  | brk L o is ts L' o' _ ih => cases hl with | brk _ _ hl => exact .brk _ _ _ _ _ _ (ih hl)
  | text L o glue text ks is u us ts L2 L' o' a1 a2 a3 a4 a5 a6 _ ih =>
    cases hl with
    | t _ _ _ _ _ _ hg hl => exact .text _ _ _ _ _ _ _ _ _ _ _ _ a1 a2 (fun h => a3 (hg h)) a4 a5 a6 (ih hl)

/-- The tokens of the pieces, without their places. -/
def itemKinds : List Item → List Kind
  | [] => []
  | .t _ _ ks :: is => ks ++ itemKinds is
  | .brk :: is => itemKinds is

theorem Stream.kinds {L L' : Nat} {o o' : Bool} {is : List Item} {ts : List Token} (h : Stream L o is ts L' o') : kindsOf ts = itemKinds is := by
  induction h with
  | nil => rfl
  | brk _ _ _ _ _ _ _ ih => exact ih
  | text L o glue text ks is u us ts L2 L' o' a1 _ _ _ _ _ _ ih => rw [kindsOf_append, ih, a1]; rfl

theorem Stream.lines {L L' : Nat} {o o' : Bool} {is : List Item} {ts : List Token} (h : Stream L o is ts L' o') : L ≤ L' := by
  induction h with
  | nil => exact Nat.le_refl _
  | brk _ _ _ _ _ _ _ ih => exact ih
  | text L o glue text ks is u us ts L2 L' o' a1 a2 a3 a4 a5 a6 _ ih => omega

/-- What the first token is like. -/
theorem Stream.head {L L' : Nat} {o o' : Bool} {g : Bool} {text : List Char} {ks : List Kind} {is : List Item} {ts : List Token}
    (h : Stream L o (.t g text ks :: is) ts L' o') : ∃ u us, ts = u :: us ∧ L ≤ u.pos.line ∧ (g = true → u.pos.line = L) ∧ (o = true → L < u.pos.line) ∧
      some (u.tok, u.text) = ks.head? := by
  cases h with
  | text _ _ _ _ _ _ u us ts L2 _ _ a1 a2 a3 a4 a5 a6 h => exact ⟨u, us ++ ts, rfl, a2, a3, a4, by rw [← a1]; rfl⟩

/-- The tokens of a formatted program. -/
theorem format_tokens {ps : List Tree.Part} (h : ∀ p ∈ ps, p.ok) (width : Int) {indent : List Char} (hi : ∀ c ∈ indent, isBlank c = true) :
    ∃ out ts L' o' epos, format width indent (root ps) = .ok out ∧ scan out = .ok (ts ++ [⟨.eof, [], epos⟩]) ∧ Stream 0 false (partsItems ps) ts L' o' := by
  obtain ⟨out, e, l⟩ := format_run h width hi
  have hok : ∀ i ∈ partsItems ps, TextOk i := by
    intro i hi
    obtain ⟨p, hp, hi⟩ := List.mem_flatMap.1 hi
    exact partItems_ok (h p hp) i hi
  obtain ⟨ts, L', o', epos, hs, hst⟩ := l.stream hok ⟨1, 1⟩ 0 false (by simp) (by simp) (by simp)
  exact ⟨out, ts, L', o', epos, e, hs out.length (Nat.le_refl _), hst⟩

end Syn
end Alda
