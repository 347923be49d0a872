import Verif.Lemmas.Parse
import Verif.Spec.Scan
/-!
Every AST of the grammar can be turned into score updates. (For C30.)
-/
namespace Alda
namespace Syn
open Spec

/-- The literals of the tokens fit their texts. -/
def Lits (ts : List Token) : Prop := ∀ t ∈ ts, t.tok ≠ .eof → Denotes t.tok t.text

theorem Lits.left {ts us : List Token} (h : Lits (ts ++ us)) : Lits ts := fun t ht => h t (List.mem_append_left _ ht)
theorem Lits.right {ts us : List Token} (h : Lits (ts ++ us)) : Lits us := fun t ht => h t (List.mem_append_right _ ht)
theorem Lits.tail {t : Token} {us : List Token} (h : Lits (t :: us)) : Lits us := fun t ht => h t (List.mem_cons_of_mem _ ht)
theorem Lits.head {t : Token} {us : List Token} (h : Lits (t :: us)) : t.tok ≠ .eof → Denotes t.tok t.text :=
  h t (List.mem_cons_self ..)

/-- The conversion succeeds. -/
def Ok {ε α : Type} (x : Except ε α) : Prop := ∃ a, x = .ok a

theorem Ok.bind {ε α β : Type} {x : Except ε α} {f : α → Except ε β} (h : Ok x) (hf : ∀ a, Ok (f a)) : Ok (x >>= f) := by
  obtain ⟨a, rfl⟩ := h; exact hf a

theorem Ok.ok {ε α : Type} (a : α) : Ok (Except.ok (ε := ε) a) := ⟨a, rfl⟩
theorem Ok.pure {ε α : Type} (a : α) : Ok (Pure.pure a : Except ε α) := ⟨a, rfl⟩

theorem ok_bind {ε α β : Type} (a : α) (f : α → Except ε β) : (Except.ok a >>= f) = f a := rfl

theorem lengthG_ok {t : Token} {n : Node} (h : LengthG t n) : Ok (durationComponent n) := by
  cases h <;> exact ⟨_, rfl⟩

theorem durationOf_append {ns ms : List Node} (h1 : Ok (durationOf ns)) (h2 : Ok (durationOf ms)) : Ok (durationOf (ns ++ ms)) := by
  induction ns with
  | nil => exact h2
  | cons n ns ih =>
    obtain ⟨d, h1⟩ := h1
    simp only [durationOf] at h1
    simp only [List.cons_append, durationOf]
    cases hn : durationComponent n with
    | error e => rw [hn] at h1; cases h1
    | ok c =>
      rw [hn] at h1
      cases hns : durationOf ns with
      | error e => rw [hns] at h1; cases h1
      | ok d => obtain ⟨x, hx⟩ := ih ⟨d, hns⟩; rw [hx]; exact ⟨_, rfl⟩

theorem durationOf_bars (k : Nat) : Ok (durationOf (List.replicate k (atom .barline .none))) := by
  induction k with
  | zero => exact ⟨_, rfl⟩
  | succ k ih =>
    obtain ⟨d, h⟩ := ih
    rw [List.replicate_succ]
    simp only [durationOf, h]
    exact ⟨_, rfl⟩

theorem lengthsG_ok {ts : List Token} {ns : List Node} (h : LengthsG ts ns) : Ok (durationOf ns) := by
  induction h with
  | done bars _ => exact durationOf_bars _
  | tied bars bars' ties tie t n ts ns _ _ _ _ h _ ih =>
    refine durationOf_append (durationOf_bars _) ?_
    simp only [durationOf]
    obtain ⟨c, hc⟩ := lengthG_ok h
    obtain ⟨d, hd⟩ := ih
    rw [hc, hd]; exact ⟨_, rfl⟩

theorem durationG_ok {ts : List Token} {ns : List Node} (h : DurationG ts ns) :
    ns = [] ∨ ∃ cs, ns = [branch .duration cs] ∧ Ok (durationOf cs) := by
  cases h with
  | none => exact .inl rfl
  | some t n ts ns h1 h2 =>
    refine .inr ⟨_, rfl, ?_⟩
    obtain ⟨c, hc⟩ := lengthG_ok h1
    obtain ⟨d, hd⟩ := lengthsG_ok h2
    simp only [durationOf, hc, hd]
    exact ⟨_, rfl⟩

theorem accidentalsG_ok {ts : List Token} {ns : List Node} (h : AccidentalsG ts ns) : Ok (accidentalsOf ns) := by
  induction h with
  | nil => exact ⟨_, rfl⟩
  | _ => rename_i ih; obtain ⟨d, hd⟩ := ih; simp only [accidentalsOf, hd]; exact ⟨_, rfl⟩

theorem newNoteLetter_ok {c : Char} (h : c ∈ ['a', 'b', 'c', 'd', 'e', 'f', 'g']) : ∃ l, newNoteLetter c = some l := by
  simp only [List.mem_cons, List.not_mem_nil, or_false] at h
  rcases h with rfl | rfl | rfl | rfl | rfl | rfl | rfl <;> exact ⟨_, rfl⟩

theorem noteG_ok {ts : List Token} {n : Node} (h : NoteG ts n) (hl : Lits ts) : Ok (updatesOf n) := by
  cases h with
  | note l c as ds ss an dn sn h1 h2 h3 h4 =>
    have hc : c ∈ ['a', 'b', 'c', 'd', 'e', 'f', 'g'] := by
      have h5 := (hl.left.left).head (by rw [h1]; simp)
      rw [h1] at h5
      generalize l.text = x at h5
      cases h5
      assumption
    obtain ⟨nl, hnl⟩ := newNoteLetter_ok hc
    have hp : Ok (pitchOf (branch .noteLetterAndAccidentals (atom .noteLetter (.chr c) ::
        (if an = [] then [] else [branch .noteAccidentals an])))) := by
      obtain ⟨acc, hacc⟩ := accidentalsG_ok h2
      by_cases han : an = []
      · rw [if_pos han]
        simp only [pitchOf, branch, atom, Node.children, Node.expect, Node.type, Node.lit, Lit.asChr, if_true, ok_bind, hnl]
        exact ⟨_, rfl⟩
      · rw [if_neg han]
        simp only [pitchOf, branch, atom, Node.children, Node.expect, Node.type, Node.lit, Lit.asChr, if_true, ok_bind, hnl]
        show Ok (do let accs ← accidentalsOf an; _)
        rw [hacc]
        exact ⟨_, rfl⟩
    have hr : ∀ d, Ok (noteRest (dn ++ sn) d false) := by
      intro d
      have hs : ∀ d, Ok (noteRest sn d false) := by
        intro d
        cases h4 <;> exact ⟨_, rfl⟩
      rcases durationG_ok h3 with rfl | ⟨cs, rfl, x, hcs⟩
      · exact hs d
      · obtain ⟨y, hy⟩ := hs x
        simp only [List.cons_append, List.nil_append, noteRest, branch, Node.type, Node.children, hcs]
        exact ⟨y, hy⟩
    obtain ⟨p, hp⟩ := hp
    obtain ⟨⟨d, s⟩, hr⟩ := hr []
    refine ⟨[.leaf (.note p d s)], ?_⟩
    generalize hlaa : (branch .noteLetterAndAccidentals (atom .noteLetter (.chr c) ::
        (if an = [] then [] else [branch .noteAccidentals an]))) = laa at hp
    have hty : laa.expect .noteLetterAndAccidentals = .ok laa := by rw [← hlaa]; rfl
    show updatesOf (branch .note (laa :: dn ++ sn)) = _
    simp only [branch, updatesOf, List.cons_append, noteOf, hty, ok_bind, hp, hr]; rfl
  | rest l ds dn h1 h2 =>
    rcases durationG_ok h2 with rfl | ⟨cs, rfl, x, hcs⟩
    · exact ⟨_, rfl⟩
    · refine ⟨[.leaf (.rest x)], ?_⟩
      show (do let d ← durationOf cs; _) = _
      rw [hcs]; rfl

mutual
theorem formG_ok {ts : List Token} {n : Node} (h : FormG ts n) : Ok (lispFormOf n) := by
  cases h with
  | symbol | number | string => exact ⟨_, rfl⟩
  | list l r ts ns _ _ h =>
    obtain ⟨fs, hf⟩ := formsG_ok h
    refine ⟨.list fs, ?_⟩
    simp only [branch, lispFormOf, hf]; rfl
theorem formsG_ok {ts : List Token} {ns : List Node} (h : FormsG ts ns) : Ok (lispFormsOf ns) := by
  cases h with
  | nil => exact ⟨_, rfl⟩
  | cons ts us n ns h1 h2 =>
    obtain ⟨f, hf⟩ := formG_ok h1
    obtain ⟨fs, hfs⟩ := formsG_ok h2
    refine ⟨f :: fs, ?_⟩
    simp only [lispFormsOf, hf, hfs]; rfl
  | quoted q ts us n ns _ h1 h2 =>
    obtain ⟨f, hf⟩ := formG_ok h1
    obtain ⟨fs, hfs⟩ := formsG_ok h2
    refine ⟨.quoted f :: fs, ?_⟩
    simp only [lispFormsOf, branch, lispFormOf, hf, hfs]; rfl
end

theorem sexpG_ok {ts : List Token} {n : Node} (h : SexpG ts n) : Ok (updatesOf n) := by
  obtain ⟨h1, h2⟩ := h
  cases h1 with
  | symbol | number | string => cases h2
  | list l r ts ns _ _ h =>
    obtain ⟨fs, hf⟩ := formsG_ok h
    refine ⟨[.lisp fs], ?_⟩
    simp only [branch, updatesOf, hf]; rfl

theorem octaveG_ok {ts : List Token} {n : Node} (h : OctaveG ts n) : Ok (updatesOf n) := by
  cases h <;> exact ⟨_, rfl⟩

theorem concat_cons {n : Node} {ns : List Node} (h1 : Ok (updatesOf n)) (h2 : Ok (concatUpdates ns)) :
    Ok (concatUpdates (n :: ns)) := by
  obtain ⟨a, h1⟩ := h1
  obtain ⟨b, h2⟩ := h2
  exact ⟨a ++ b, by simp only [concatUpdates, h1, h2]; rfl⟩

theorem concat_append {ns ms : List Node} (h1 : Ok (concatUpdates ns)) (h2 : Ok (concatUpdates ms)) :
    Ok (concatUpdates (ns ++ ms)) := by
  induction ns with
  | nil => exact h2
  | cons n ns ih =>
    obtain ⟨d, h1⟩ := h1
    simp only [concatUpdates] at h1
    cases hn : updatesOf n with
    | error e => rw [hn] at h1; cases h1
    | ok c =>
      rw [hn] at h1
      cases hns : concatUpdates ns with
      | error e => rw [hns] at h1; cases h1
      | ok d => exact concat_cons ⟨c, hn⟩ (ih ⟨d, hns⟩)

theorem betweenG_ok {ts : List Token} {ns : List Node} (h : BetweenG ts ns) : Ok (concatUpdates ns) := by
  induction h with
  | nil => exact ⟨_, rfl⟩
  | octave ts us n ns ho _ ih => exact concat_cons (octaveG_ok ho) ih
  | sexp ts us n ns ho _ ih => exact concat_cons (sexpG_ok ho) ih

theorem chordG_ok {ts : List Token} {ns : List Node} (h : ChordG ts ns) (hl : Lits ts) :
    Ok (concatUpdates ns) ∧ ns ≠ [] := by
  induction h with
  | two ts bs cs us sep n m bn cn h1 h2 _ h3 h4 =>
    refine ⟨concat_append (concat_append (concat_cons (noteG_ok h1 hl.left.left.left) (betweenG_ok h2)) (betweenG_ok h3)) ?_, by simp⟩
    exact concat_cons (noteG_ok h4 hl.right) ⟨_, rfl⟩
  | more ts bs cs us sep n bn cn ns h1 h2 _ h3 _ ih =>
    exact ⟨concat_append (concat_append (concat_cons (noteG_ok h1 hl.left.left.left) (betweenG_ok h2)) (betweenG_ok h3))
      (ih hl.right).1, by simp⟩

theorem notesG_ok {ts : List Token} {n : Node} (h : NotesG ts n) (hl : Lits ts) : Ok (updatesOf n) := by
  cases h with
  | single _ h => exact noteG_ok h hl
  | chord ns h =>
    obtain ⟨⟨a, ha⟩, hne⟩ := chordG_ok h hl
    refine ⟨[.chord a], ?_⟩
    simp only [branch, updatesOf, ha]
    rw [if_neg (by simpa using hne)]; rfl

theorem repeat_ok {n : Node} (k : Int) (h : Ok (updatesOf n)) : Ok (updatesOf (branch .repeat [n, atom .times (.int k)])) := by
  obtain ⟨a, h⟩ := h
  refine ⟨[.rep (oneOrSeq a) k], ?_⟩
  simp only [branch, updatesOf, h]; rfl

theorem repeatedG_ok {ts us : List Token} {n m : Node} (h : RepeatedG ts n us m) (hn : Lits ts → Ok (updatesOf n))
    (hl : Lits us) : Ok (updatesOf m) := by
  cases h with
  | once => exact hn hl
  | times t k _ => exact repeat_ok k (hn hl.left)

theorem rangesOf_ok (rs : List (Int × Int)) : Ok (rangesOf (rangesNode rs).children) := by
  induction rs with
  | nil => exact ⟨_, rfl⟩
  | cons r rs ih =>
    obtain ⟨a, h⟩ := ih
    simp only [rangesNode, branch, Node.children] at h
    refine ⟨r :: a, ?_⟩
    simp only [rangesNode, branch, Node.children, List.map_cons, rangesOf, h]; rfl

theorem eventsG_ok {ts : List Token} {ns : List Node} (h : EventsG ts ns) (hl : Lits ts) : Ok (concatUpdates ns) := by
  refine EventsG.rec (motive_1 := fun ts n _ => Lits ts → Ok (updatesOf n))
    (motive_2 := fun ts ns _ => Lits ts → Ok (concatUpdates ns)) (motive_3 := fun _ ts ns _ => Lits ts → Ok (concatUpdates ns))
    (motive_4 := fun ts ns _ => Lits ts → Ok (concatUpdates ns)) (motive_5 := fun ts ns _ => Lits ts → Ok (concatUpdates ns))
    ?sexp ?octave ?notes ?notesTimes ?notesZero ?barline ?marker ?atMarker ?varRef ?varDef ?seq ?cram ?voices ?nil ?cons
    ?lnil ?lcons ?snil ?scons ?onReps ?last ?ended ?vcons h hl
  case sexp => intro ts us n m h1 h2 hl; exact repeatedG_ok h2 (fun _ => sexpG_ok h1) hl
  case octave => intro ts n h hl; exact octaveG_ok h
  case notes => intro ts n h hl; exact notesG_ok h hl
  case notesTimes => intro ts n t k h _ _ hl; exact repeat_ok k (notesG_ok h hl.left)
  case notesZero => intro ts n t k h _ _ hl; exact notesG_ok h hl.left
  case barline => intros; exact ⟨_, rfl⟩
  case marker => intros; exact ⟨_, rfl⟩
  case atMarker => intros; exact ⟨_, rfl⟩
  case varRef => intro t us m _ h hl; exact repeatedG_ok h (fun _ => ⟨_, rfl⟩) hl
  case varDef =>
    intro t eq ts ns _ _ _ _ ih hl
    obtain ⟨a, ha⟩ := ih hl.tail.tail
    refine ⟨[.varDef (String.ofList t.text) a], ?_⟩
    simp only [branch, updatesOf, innerUpdates, if_true, ha]; rfl
  case seq =>
    intro o c ts us ns m _ _ _ h2 ih hl
    refine repeatedG_ok h2 (fun hl => ?_) hl
    obtain ⟨a, ha⟩ := ih hl.left.tail
    refine ⟨[.seq a], ?_⟩
    simp only [branch, updatesOf, ha]; rfl
  case cram =>
    intro o c ts ds us ns dn m _ _ _ _ h2 h3 ih hl
    refine repeatedG_ok h3 (fun hl => ?_) hl
    obtain ⟨a, ha⟩ := ih hl.left.tail
    rcases durationG_ok h2 with rfl | ⟨cs, rfl, x, hcs⟩
    · refine ⟨[.cram a []], ?_⟩
      simp only [branch, updatesOf, innerUpdates, if_true, ha]; rfl
    · refine ⟨[.cram a x], ?_⟩
      have : optDuration (.mk .duration .none cs) = .ok x := hcs
      simp only [branch, updatesOf, innerUpdates, if_true, ha, this]; rfl
  case voices =>
    intro ts ns _ ih hl
    obtain ⟨a, ha⟩ := ih hl
    exact ⟨a, by simp only [branch, updatesOf, ha]⟩
  case nil => intro _; exact ⟨_, rfl⟩
  case lnil => intro _ _; exact ⟨_, rfl⟩
  case snil => intro _; exact ⟨_, rfl⟩
  case cons => intro ts us n ns _ _ h1 h2 hl; exact concat_cons (h1 hl.left) (h2 hl.right)
  case lcons => intro _ ts us n ns _ _ _ h1 h2 hl; exact concat_cons (h1 hl.left) (h2 hl.right)
  case scons => intro ts us n ns _ _ h1 h2 hl; exact concat_cons (h1 hl.left) (h2 hl.right)
  case onReps =>
    intro ts us n ns t rs _ ht _ h1 h2 hl
    refine concat_cons ?_ (h2 hl.right.tail)
    obtain ⟨a, ha⟩ := h1 hl.left
    have hne : rs ≠ [] := by
      have hd := hl.right.head (by rw [ht]; simp)
      rw [ht] at hd
      generalize t.text = x at hd
      cases hd
      rename_i h; cases h <;> simp
    obtain ⟨b, hb⟩ := rangesOf_ok rs
    refine ⟨[.onReps b (oneOrSeq a)], ?_⟩
    have he : ¬ ((rangesNode rs).children.isEmpty = true) := by
      cases rs with
      | nil => exact absurd rfl hne
      | cons r rs => simp [rangesNode, branch, Node.children]
    have he' : Node.expect (rangesNode rs) .repetitions = .ok (rangesNode rs) := rfl
    simp only [branch, updatesOf, ha, he', ok_bind, if_neg he, hb]; rfl
  case last =>
    intro v k ts ns _ _ h hl
    obtain ⟨a, ha⟩ := h hl.tail
    refine concat_cons ⟨.voice k :: a, ?_⟩ ⟨_, rfl⟩
    simp only [branch, updatesOf, innerUpdates, if_true, ha]; rfl
  case ended =>
    intro v z k ts ns _ _ _ h hl
    obtain ⟨a, ha⟩ := h hl.left.tail
    refine concat_cons ⟨.voice k :: a, ?_⟩ ⟨_, rfl⟩
    simp only [branch, updatesOf, innerUpdates, if_true, ha]; rfl
  case vcons =>
    intro v k ts us ns vs _ _ _ h h2 hl
    obtain ⟨a, ha⟩ := h hl.left.tail
    refine concat_cons ⟨.voice k :: a, ?_⟩ (h2 hl.right)
    simp only [branch, updatesOf, innerUpdates, if_true, ha]; rfl

theorem namesG_ok {ts : List Token} {ns : List Node} (h : NamesG ts ns) : Ok (namesOf ns) := by
  induction h with
  | nil => exact ⟨_, rfl⟩
  | cons s t ts ns _ _ _ ih =>
    obtain ⟨a, h⟩ := ih
    refine ⟨String.ofList t.text :: a, ?_⟩
    simp only [namesOf, h]; rfl

theorem partG_ok {ts : List Token} {n : Node} (h : PartG ts n) (hl : Lits ts) : Ok (updatesOf n) := by
  cases h with
  | implicit ts ns h =>
    obtain ⟨a, ha⟩ := eventsG_ok h hl
    refine ⟨a, ?_⟩
    simp only [branch, updatesOf, innerUpdates, if_true, ha]
  | declared t c ts as us ns an es _ h1 h2 _ h3 =>
    obtain ⟨a, ha⟩ := eventsG_ok h3 hl.right.tail
    obtain ⟨names, hn⟩ := namesG_ok h1
    have hd : Ok (declarationOf (branch .partDeclaration (branch .partNames
        (atom .partName (.str (String.ofList t.text)) :: ns) :: an))) := by
      have hn' : namesOf (atom .partName (.str (String.ofList t.text)) :: ns) =
          .ok (String.ofList t.text :: names) := by simp only [namesOf, hn]; rfl
      cases h2 with
      | none =>
        refine ⟨.partDecl (String.ofList t.text :: names) "", ?_⟩
        show (do let ns ← namesOf (atom .partName (.str (String.ofList t.text)) :: ns); _) = _
        rw [hn']; rfl
      | some t' al _ =>
        refine ⟨.partDecl (String.ofList t.text :: names) al, ?_⟩
        show (do let ns ← namesOf (atom .partName (.str (String.ofList t.text)) :: ns); _) = _
        rw [hn']; rfl
    obtain ⟨d, hd⟩ := hd
    refine ⟨d :: a, ?_⟩
    have hd' : declarationOf (Node.mk .partDeclaration .none (branch .partNames
        (atom .partName (.str (String.ofList t.text)) :: ns) :: an)) = .ok d := hd
    rw [branch, updatesOf]
    show (do let d ← declarationOf (branch .partDeclaration _); _) = _
    rw [hd]
    show (do let es ← innerUpdates (branch .eventSequence es) _; _) = _
    simp only [branch, innerUpdates, if_true, ha]; rfl

theorem programG_ok {ts : List Token} {n : Node} (h : ProgramG ts n) (hl : Lits ts) : Ok (updatesOf n) := by
  obtain ⟨ns, h, rfl⟩ := h
  have : Ok (concatUpdates ns) := by
    induction h with
    | nil => exact ⟨_, rfl⟩
    | cons ts us n ns h _ ih => exact concat_cons (partG_ok h hl.left) (ih hl.right)
  obtain ⟨a, ha⟩ := this
  exact ⟨a, by simp only [branch, updatesOf, ha]⟩

end Syn
end Alda
