import Verif.Proof.Textbook4
/-!
# A key of the editor and a turn of the textbook
-/
namespace Readline
open Spec

variable {E : Env} {L : Logic} {D : Desk} {e : Ed} {p : Page}

/-- The command does what the verb says. -/
inductive Spec.Means : Cmd → Verb → Prop
  | enter : Means .acceptLine .enter
  | interrupt : Means .interrupt .interrupt
  | deleteOrClose : Means .deleteOrAbort .deleteOrClose
  | home : Means .beginningOfLine .home
  | goEnd : Means .endOfLine .goEnd
  | left : Means .backwardChar .left
  | right : Means .forwardChar .right
  | wordLeft : Means .backwardWord .wordLeft
  | wordRight : Means .forwardWord .wordRight
  | backspace : Means .backwardDeleteChar .backspace
  | delete : Means .deleteChar .delete
  | killRight : Means .killLine .killRight
  | killLeft : Means .unixLineDiscard .killLeft
  | killAll : Means .killWholeLine .killAll
  | killWord : Means .unixWordRubout .killWord
  | type (t : List Char) : t ≠ [] → Means (.selfInsert (utf8 t)) (.type t)
  | literally : Means .quotedInsert .literally
  | paste : Means .yank .paste
  | pasteQuoted : Means .yankWithQuote .pasteQuoted
  | exchange : Means .swapChar .exchange
  | undo : Means .undo .undo
  | older : Means .previousHistory .older
  | newer : Means .nextHistory .newer
  | search : Means .isearchBackward .search
  | clear : Means .clearScreen .redraw
  | repaint : Means .repaintOnNewline .redraw

theorem Spec.Means.builtin {c : Cmd} {v : Verb} (h : Means c v) : c.builtin = true := by cases h <;> rfl

/-- What `ReadLine` returns. -/
def Spec.Ending.answer : Ending → Option RLRes
  | .entered t => some { text := utf8 t, err := .nil }
  | .interrupted => some { text := [], err := .ctrlC }
  | .closed => some { text := [], err := .eof }
  | .starved => some { text := [], err := .tty [] }
  | .crashed => none

/-- The prediction of the editor is the one for the line. -/
structure Offers (D : Desk) (e : Ed) (p : Page) : Prop where
  text : lineText e.suffixList = utf8 (p.offer D)
  none : e.suffixList = [] ↔ p.offer D = []

theorem predict_input (x : Ed) : (Ed.predict L x).input = x.input := by
  unfold Ed.predict
  split
  · rfl
  · split <;> rfl

theorem delete_input (x : Ed) (a b : Int) : (x.delete a b).input = x.input := by unfold Ed.delete; split <;> rfl

theorem replace_input (x : Ed) (a : Int) (t : Bytes) : (Ed.replace L x a t).input = x.input := by
  unfold Ed.replace
  dsimp only
  rw [predict_input]
  exact delete_input _ _ _

theorem offer_alone (hs : Suits D L) {p : Page} (ha : AloneIn L.cfg p.text) : AloneIn L.cfg (p.offer D) := by
  unfold Page.offer
  split
  · intro c hc; cases hc
  · exact hs.guess_alone ha

/-- What a command does to the input. -/
theorem call_input {c : Cmd} (hc : c ≠ .quotedInsert) (hi : c ≠ .isearchBackward) : (Ed.call L c e).1.input = e.input := by
  have hsave : ∀ x : Ed, (Ed.saveHist L x).input = x.input := by intro x; unfold Ed.saveHist; split <;> rfl
  have hshow : ∀ x : Ed, (Ed.showHist L x).input = x.input := by
    intro x; unfold Ed.showHist; dsimp only; split <;> rfl
  cases c with
  | acceptLine | interrupt | endOfLine | killLine | killWholeLine | forwardWord | custom => rfl
  | beginningOfLine | clearScreen | repaintOnNewline | backwardWord => exact predict_input _
  | backwardChar =>
    simp only [Ed.call]
    split
    · rfl
    · exact predict_input _
  | forwardChar =>
    simp only [Ed.call]
    split
    · split
      · exact replace_input _ _ _
      · rfl
    · rfl
  | backwardDeleteChar =>
    simp only [Ed.call, Ed.backspace]
    split
    · rw [predict_input, delete_input]
    · rfl
  | deleteChar => simp only [Ed.call]; rw [predict_input, delete_input]
  | deleteOrAbort =>
    simp only [Ed.call]
    split
    · rw [predict_input, delete_input]
    · rfl
  | unixWordRubout =>
    simp only [Ed.call, Ed.wordRubout]
    rw [predict_input]
    exact delete_input _ _ _
  | unixLineDiscard =>
    simp only [Ed.call]
    rw [predict_input]
    exact delete_input _ _ _
  | quotedInsert => exact absurd rfl hc
  | yank =>
    simp only [Ed.call]
    split
    · rfl
    · exact replace_input _ _ _
  | yankWithQuote =>
    simp only [Ed.call]
    split
    · rfl
    · exact replace_input _ _ _
  | swapChar =>
    simp only [Ed.call, Ed.swap]
    split
    · split <;> rfl
    · split <;> rfl
  | undo =>
    simp only [Ed.call, Ed.undo]
    split
    · rfl
    · rw [predict_input]
      split <;> rfl
  | previousHistory =>
    simp only [Ed.call, Ed.prevHist]
    split
    · rfl
    · split
      · rfl
      · rw [hshow]
        show (Ed.saveHist L _).input = _
        rw [hsave]
        split <;> rfl
  | nextHistory =>
    simp only [Ed.call, Ed.nextHist]
    split
    · rfl
    · split
      · rfl
      · rw [hshow]
        show (Ed.saveHist L _).input = _
        rw [hsave]
  | isearchBackward => exact absurd rfl hi
  | selfInsert k => exact Ed.type_input L e k
  | completion P =>
    simp only [Ed.call, Ed.complete]
    split
    · rfl
    · rfl
    · split
      · exact predict_input _
      · rfl
    · exact replace_input _ _ _

/-- The state and the keys left behind a command. -/
def Lead (L : Logic) (e : Ed) (c : Cmd) (q : Page) (ks : List (List Char)) : Prop :=
  (Ed.call L c e).2 = .cont ∧ Portrays L (Ed.call L c e).1 q ∧ Upcoming (Ed.call L c e).1.input ks

theorem lead_plain {c : Cmd} {q : Page} {ks : List (List Char)} (hc : c ≠ .quotedInsert) (hi : c ≠ .isearchBackward)
    (hr : Upcoming e.input ks) (h1 : (Ed.call L c e).2 = .cont) (h2 : Portrays L (Ed.call L c e).1 q) : Lead L e c q ks :=
  ⟨h1, h2, by rw [call_input hc hi]; exact hr⟩

theorem text_alone {L : Logic} {e : Ed} {p : Page} (h : Portrays L e p) (ha : AloneEd L e) : AloneIn L.cfg p.text :=
  over_alone.mp (h.text ▸ ha.text)

theorem clip_alone {L : Logic} {e : Ed} {p : Page} (h : Portrays L e p) (ha : AloneEd L e) {t : List Char} (ht : p.clip = some t) : AloneIn L.cfg t :=
  over_alone.mp (ha.clip (utf8 t) (by rw [h.clip, ht]; rfl))

/-- What may be typed stands alone. -/
structure Typable (D : Desk) (C : Cfg) (k : List Char) (ks : List (List Char)) : Prop where
  typed : ∀ t, D.verb k = .type t → AloneIn C (keyText t)
  literal : D.verb k = .literally → ∀ t ∈ ks, AloneIn C (keyText t)
  quote : D.verb k = .pasteQuoted → ¬ Joins C '"'.toNat

theorem alone_pasted {C : Cfg} {t : List Char} (h : AloneIn C t) : AloneIn C (pasted t) := by
  intro c hc
  unfold pasted at hc
  rw [dropEnd_take] at hc
  exact h c (List.mem_of_mem_take hc)

theorem requote_mem (t : List Char) : ∀ c ∈ requote t, c = '"' ∨ c ∈ t := by
  induction t using requote.induct with
  | case1 t ih =>
    intro c hc
    rw [requote] at hc
    rcases List.mem_append.mp hc with hc | hc
    · simp only [List.mem_cons, List.not_mem_nil, or_false] at hc
      rcases hc with rfl | rfl | rfl | rfl <;> simp
    · rcases ih c hc with h | h
      · exact .inl h
      · exact .inr (by simp [h])
  | case2 d t hd ih =>
    intro c hc
    rw [requote.eq_2 _ _ hd] at hc
    rcases List.mem_cons.mp hc with rfl | hc
    · simp
    · rcases ih c hc with h | h
      · exact .inl h
      · exact .inr (by simp [h])
  | case3 => intro c hc; cases hc

theorem alone_quoted {C : Cfg} {t : List Char} (h : AloneIn C t) (hq : ¬ Joins C '"'.toNat) : AloneIn C (quotedText t) := by
  unfold quotedText
  split
  · intro c hc
    rcases requote_mem _ c hc with rfl | hc
    · exact hq
    · rw [List.mem_append, List.mem_append, List.mem_singleton, List.mem_flatMap] at hc
      rcases hc with (rfl | ⟨x, hx, hc⟩) | rfl
      · exact hq
      · split at hc
        · simp at hc; subst hc; exact hq
        · simp at hc; subst hc; exact h _ hx
      · exact hq
  · exact h

/-- **One key**: the command does to the state what the textbook does to the page. -/
theorem call_turn (hs : Suits D E.logic) {c : Cmd} {k : List Char} {ks : List (List Char)} (hm : Means c (D.verb k))
    (h : Portrays E.logic e p) (ha : AloneEd E.logic e) (hr : Upcoming e.input ks) (ho : c = .forwardChar → Offers D e p)
    (ht : Typable D E.cfg k ks) :
    (∀ q ks', turn D p k ks = .inl (q, ks') → Lead E.logic e c q ks') ∧
    (∀ a, turn D p k ks = .inr a → (a = .crashed ∧ c = .undo ∧ p.undo = none) ∨
      ((Ed.call E.logic c e).2 ≠ .cont ∧
        a.answer = some { text := (Ed.call E.logic c e).1.text, err := endError (Ed.call E.logic c e).2 })) := by
  have hc : e.cursor.toNat = p.left.length := by rw [h.cursor]; rfl
  obtain ⟨t1, t2, t3⟩ := ht
  unfold turn
  generalize hv : D.verb k = v at hm t1 t2 t3
  cases hm with
  | enter =>
    refine ⟨fun q ks' hx => by (cases hx), fun a hx => ?_⟩
    cases hx
    refine .inr ⟨by simp [Ed.call], ?_⟩
    simp only [Ed.call]
    rw [h.text]
    rfl
  | interrupt =>
    refine ⟨fun q ks' hx => by (cases hx), fun a hx => ?_⟩
    cases hx
    exact .inr ⟨by simp [Ed.call], rfl⟩
  | deleteOrClose =>
    dsimp only
    by_cases h0 : p.text = []
    · rw [if_pos h0]
      have hl : ¬ e.len > 0 := by rw [h.len, h0]; simp
      refine ⟨fun q ks' hx => by (cases hx), fun a hx => ?_⟩
      cases hx
      right
      simp only [Ed.call]
      rw [if_neg hl]
      refine ⟨by simp, ?_⟩
      show _ = some ({ text := e.text, err := _ } : RLRes)
      rw [h.text, h0]
      rfl
    · rw [if_neg h0]
      have hl : e.len > 0 := by rw [h.len]; have := List.length_pos_iff.mpr h0; omega
      refine ⟨fun q ks' hx => ?_, fun a hx => by (cases hx)⟩
      cases hx
      refine lead_plain (by simp) (by simp) hr ?_ ?_
      · simp only [Ed.call]; rw [if_pos hl]
      · simp only [Ed.call]; rw [if_pos hl]; exact h.delete.predict
  | home =>
    refine ⟨fun q ks' hx => ?_, fun a hx => by (cases hx)⟩
    cases hx
    exact lead_plain (by simp) (by simp) hr rfl (Portrays.predict (h.move (l := []) (r := p.text) rfl rfl))
  | goEnd =>
    refine ⟨fun q ks' hx => ?_, fun a hx => by (cases hx)⟩
    cases hx
    exact lead_plain (by simp) (by simp) hr rfl (h.move (List.append_nil _) h.len)
  | left =>
    refine ⟨fun q ks' hx => ?_, fun a hx => by (cases hx)⟩
    cases hx
    refine lead_plain (by simp) (by simp) hr rfl ?_
    simp only [Ed.call]
    by_cases hl : p.left = []
    · rw [if_pos (by rw [h.cursor, hl]; simp), if_pos hl]; exact h
    · have := List.length_pos_iff.mpr hl
      rw [if_neg (by rw [h.cursor]; omega), if_neg hl]
      refine Portrays.predict (h.move ?_ ?_)
      · rw [List.dropLast_eq_take, ← List.append_assoc, List.take_append_drop]; rfl
      · rw [h.cursor, List.length_dropLast]; omega
  | right =>
    refine ⟨fun q ks' hx => ?_, fun a hx => by (cases hx)⟩
    cases hx
    refine lead_plain (by simp) (by simp) hr rfl ?_
    have ho := ho rfl
    simp only [Ed.call]
    cases hrt : p.right with
    | cons c r =>
      rw [if_neg (by rw [h.len, h.cursor, Page.length_text, hrt, List.length_cons]; omega)]
      refine h.move ?_ ?_
      · unfold Page.text; rw [hrt]; simp
      · rw [h.cursor, List.length_append]; rfl
    | nil =>
      rw [if_pos (by rw [h.len, h.cursor, Page.length_text, hrt]; simp)]
      dsimp only
      by_cases h0 : p.offer D = []
      · rw [if_pos h0, if_neg (by rw [ho.none.mpr h0]; simp)]
        exact h
      · rw [if_neg h0, if_pos (List.length_pos_iff.mpr (fun hx => h0 (ho.none.mp hx))), ho.text]
        exact h.replace (offer_alone hs (text_alone h ha))
  | wordLeft =>
    refine ⟨fun q ks' hx => ?_, fun a hx => by (cases hx)⟩
    cases hx
    exact lead_plain (by simp) (by simp) hr rfl h.wordLeft.predict
  | wordRight =>
    refine ⟨fun q ks' hx => ?_, fun a hx => by (cases hx)⟩
    cases hx
    exact lead_plain (by simp) (by simp) hr rfl h.wordRight
  | backspace =>
    refine ⟨fun q ks' hx => ?_, fun a hx => by (cases hx)⟩
    cases hx
    exact lead_plain (by simp) (by simp) hr rfl h.backspace
  | delete =>
    refine ⟨fun q ks' hx => ?_, fun a hx => by (cases hx)⟩
    cases hx
    exact lead_plain (by simp) (by simp) hr rfl h.delete.predict
  | killRight =>
    refine ⟨fun q ks' hx => ?_, fun a hx => by (cases hx)⟩
    cases hx
    exact lead_plain (by simp) (by simp) hr rfl (h.killRight hs.clipSet)
  | killLeft =>
    refine ⟨fun q ks' hx => ?_, fun a hx => by (cases hx)⟩
    cases hx
    exact lead_plain (by simp) (by simp) hr rfl (h.killLeft hs.clipSet)
  | killAll =>
    refine ⟨fun q ks' hx => ?_, fun a hx => by (cases hx)⟩
    cases hx
    exact lead_plain (by simp) (by simp) hr rfl h.killAll
  | killWord =>
    refine ⟨fun q ks' hx => ?_, fun a hx => by (cases hx)⟩
    cases hx
    exact lead_plain (by simp) (by simp) hr rfl (h.killWord hs)
  | type t hne =>
    refine ⟨fun q ks' hx => ?_, fun a hx => by (cases hx)⟩
    cases hx
    exact lead_plain (by simp) (by simp) hr rfl (h.type hne (t1 t rfl))
  | literally =>
    cases ks with
    | nil =>
      refine ⟨fun q ks' hx => ?_, fun a hx => by (cases hx)⟩
      cases hx
      refine ⟨rfl, ?_, ?_⟩
      · simp only [Ed.call]; rw [getKey_none hr]; exact h
      · simp only [Ed.call]; rw [getKey_none hr]; exact hr
    | cons t ks =>
      refine ⟨fun q ks' hx => ?_, fun a hx => by (cases hx)⟩
      cases hx
      obtain ⟨r, hg, hr'⟩ := getKey_some hr
      refine ⟨rfl, ?_, ?_⟩
      · simp only [Ed.call]
        rw [hg]
        exact (h.input r).type (hr.full t (by simp)) (t2 rfl t (by simp))
      · simp only [Ed.call]
        rw [hg]
        dsimp only
        rw [Ed.type_input]
        exact hr'
  | paste =>
    refine ⟨fun q ks' hx => ?_, fun a hx => by (cases hx)⟩
    cases hx
    refine lead_plain (by simp) (by simp) hr rfl ?_
    simp only [Ed.call]
    rw [h.clip]
    cases hcl : p.clip with
    | none => exact h
    | some t =>
      show Portrays _ (Ed.replace _ e e.cursor (trimRightCRLFNUL (utf8 t))) _
      rw [pasted_chars]
      exact h.replace (alone_pasted (clip_alone h ha hcl))
  | pasteQuoted =>
    refine ⟨fun q ks' hx => ?_, fun a hx => by (cases hx)⟩
    cases hx
    refine lead_plain (by simp) (by simp) hr rfl ?_
    simp only [Ed.call]
    rw [h.clip]
    cases hcl : p.clip with
    | none => exact h
    | some t =>
      show Portrays _ (Ed.replace _ e e.cursor (quoteText (utf8 t))) _
      rw [quoted_chars]
      exact h.replace (alone_quoted (clip_alone h ha hcl) (t3 rfl))
  | exchange =>
    refine ⟨fun q ks' hx => ?_, fun a hx => by (cases hx)⟩
    cases hx
    exact lead_plain (by simp) (by simp) hr rfl h.exchange
  | undo =>
    dsimp only
    cases hu : p.undo with
    | none =>
      refine ⟨fun q ks' hx => by (cases hx), fun a hx => ?_⟩
      cases hx
      exact .inl ⟨rfl, rfl, rfl⟩
    | some q =>
      refine ⟨fun q ks' hx => ?_, fun a hx => by (cases hx)⟩
      cases hx
      exact lead_plain (by simp) (by simp) hr rfl (h.undo ha hu)
  | older =>
    refine ⟨fun q ks' hx => ?_, fun a hx => by (cases hx)⟩
    cases hx
    exact lead_plain (by simp) (by simp) hr rfl (h.older ha hs)
  | newer =>
    refine ⟨fun q ks' hx => ?_, fun a hx => by (cases hx)⟩
    cases hx
    exact lead_plain (by simp) (by simp) hr rfl (h.newer ha hs)
  | search =>
    have hlen : ks.length < e.input.length + 1 := by
      have : ks.length = (keysIn e.input).length := by rw [hr.keys, List.length_map]
      have hk : ∀ evs : List Ev, (keysIn evs).length ≤ evs.length := by
        intro evs
        induction evs with
        | nil => simp [keysIn]
        | cons x evs ih => cases x <;> simp [keysIn] <;> omega
      have := hk e.input
      omega
    have hq : Quested E.cfg { pos := E.history.length - 1 } { pos := D.history.length - 1 } :=
      ⟨rfl, by simp [utf8], by show E.history.length - 1 = _; rw [hist_len hs], fun c hc => by cases hc⟩
    obtain ⟨s1, s2⟩ := search_run hs hlen h hr (hunt_start E) hq
    dsimp only
    rcases hrun : Quest.run D { pos := D.history.length - 1 } ks with ⟨o, ks2⟩
    cases o with
    | some t =>
      refine ⟨fun q ks' hx => ?_, fun a hx => by (cases hx)⟩
      cases hx
      exact ⟨rfl, s1 t _ hrun⟩
    | none =>
      refine ⟨fun q ks' hx => ?_, fun a hx => by (cases hx)⟩
      cases hx
      exact ⟨rfl, s2 _ hrun⟩
  | clear =>
    refine ⟨fun q ks' hx => ?_, fun a hx => by (cases hx)⟩
    cases hx
    exact lead_plain (by simp) (by simp) hr rfl h.predict
  | repaint =>
    refine ⟨fun q ks' hx => ?_, fun a hx => by (cases hx)⟩
    cases hx
    exact lead_plain (by simp) (by simp) hr rfl h.predict

end Readline
