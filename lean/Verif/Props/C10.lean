import Verif.Proof.Carry
import Verif.Spec.Example
/-!
# C10: kill then yank restores the line

`C10_partial`: in a state of a session no unit of which starts with an attaching code point except
the first, a kill and an immediate Yank give the old units back, with the cursor after the
restored text.  `C10_iff`: this is so exactly if no killed unit but the first starts with an attaching code point.
`C10_exact` says for every line and state what comes back.  `C10_refuted_orphan`: otherwise the restored text may be cut differently.
`C10_newline`: a line feed at the end of the killed text is lost.
-/
namespace Readline
open Spec

/-- The text does not end in CR, LF or NUL. -/
def Spec.NoNewlineEnd (t : Bytes) : Prop := ∀ x, t.getLast? = some x → x ≠ 13 ∧ x ≠ 10 ∧ x ≠ 0

/-- `u` is `t` without the CR, LF and NUL at its end. -/
def Spec.Trimmed (t u : Bytes) : Prop :=
  ∃ tail, t = u ++ tail ∧ (∀ x ∈ tail, x = 13 ∨ x = 10 ∨ x = 0) ∧ NoNewlineEnd u

theorem trim_ok (t : Bytes) : Trimmed t (trimRightCRLFNUL t) := by
  unfold trimRightCRLFNUL
  refine ⟨(t.reverse.takeWhile (fun b => b == 0x0D || b == 0x0A || b == 0)).reverse, ?_, fun x hx => ?_, fun x hx => ?_⟩
  · rw [← List.reverse_append, List.takeWhile_append_dropWhile, List.reverse_reverse]
  · have := List.all_takeWhile (l := t.reverse) (p := fun b => b == 0x0D || b == 0x0A || b == 0)
    rw [List.all_eq_true] at this
    have := this x (List.mem_reverse.mp hx)
    simp only [Bool.or_eq_true, beq_iff_eq] at this
    rcases this with (h | h) | h <;> simp [h]
  · rw [List.getLast?_reverse] at hx
    have := List.head?_dropWhile_not (fun b => b == 0x0D || b == 0x0A || b == 0) t.reverse
    rw [hx] at this
    simp only [Bool.not_eq_true', Bool.or_eq_false_iff, beq_eq_false_iff_ne] at this
    exact ⟨this.1.1, this.1.2, this.2⟩

theorem trim_eq {t : Bytes} (h : NoNewlineEnd t) : trimRightCRLFNUL t = t := by
  unfold trimRightCRLFNUL
  cases hr : t.reverse with
  | nil => simpa using hr.symm
  | cons x l =>
    have hx : t.getLast? = some x := by rw [← List.head?_reverse, hr]; rfl
    obtain ⟨h1, h2, h3⟩ := h x hx
    rw [List.dropWhile_cons_of_neg (by simp [h1, h2, h3]), ← hr, List.reverse_reverse]

/-- The three killing commands: from the two halves of the line to what they leave and kill. -/
inductive Spec.Kills : Cmd → List Bytes → List Bytes → List Bytes → List Bytes → List Bytes → Prop where
  | line {l r} : Kills .killLine l r l r []
  | discard {l r} : Kills .unixLineDiscard l r [] l r
  | rubout {a m r} : Kills .unixWordRubout (a ++ m) r a m r

theorem kill_yank {L : Logic} {e : Ed} {ml mm mr : List Moji} (h : e.At ml mr) {t : Bytes}
    (hc : e.clip = some t) (ht : NoNewlineEnd t) (hs : segs L.cfg t = mm) :
    Ed.At (Ed.call L .yank e).1 (ml ++ mm) mr := by
  simp only [Ed.call]
  rw [hc]
  dsimp only
  rw [trim_eq ht, ← hs]
  have : e.cursor = ml.length := h.cursor
  rw [this]
  apply Ed.At.replace (m := [])
  simpa using h

/-! ## Texts that are cut into the same units again -/

theorem segN_tidy {C : Cfg} (rs : List Rune) (j : Bool) (acc : List Moji)
    (h : ∀ m ∈ acc.dropLast, ¬ Orphan C m) : TailTidy C (segN C rs j acc) := by
  have hm : ∀ (f : Moji → Moji), (∀ m, firstRune (f m) = firstRune m) → ∀ l : List Moji,
      (∀ m ∈ l.dropLast, ¬ Orphan C m) → ∀ m ∈ (mapHead f l).dropLast, ¬ Orphan C m := by
    intro f hf l hl
    match l with
    | [] => exact hl
    | [a] => intro m hm; cases hm
    | a :: b :: l =>
      intro m hm
      simp only [mapHead, List.dropLast_cons_cons, List.mem_cons] at hm hl
      rcases hm with rfl | hm
      · have := hl a (Or.inl rfl)
        unfold Orphan at this ⊢
        rwa [hf]
      · exact hl m (Or.inr hm)
  induction rs generalizing j acc with
  | nil =>
    unfold segN TailTidy
    rw [List.tail_reverse]
    intro m hmem
    rw [List.mem_reverse] at hmem
    split at hmem
    · exact hm (fun m => .zwj m (.raw runeError)) (fun _ => rfl) acc h m hmem
    · exact h m hmem
  | cons r rs ih =>
    unfold segN
    split
    · exact ih _ _ (hm (fun m => .zwj m (.raw r)) (fun _ => rfl) _ h)
    split
    · rename_i hc
      apply ih
      cases acc with
      | nil => intro m hm; cases hm
      | cons a acc =>
        intro m hmem
        rw [List.dropLast_cons_cons, List.mem_cons] at hmem
        rcases hmem with rfl | hmem
        · unfold Orphan
          rw [firstRune_base]
          rcases hc with hc | hc
          · cases hc
          · simp [hc]
        · exact h m hmem
    split
    · exact ih _ _ h
    split
    · exact ih _ _ (hm (fun m => .vari m (.raw r)) (fun _ => rfl) _ h)
    · exact ih _ _ (hm (fun m => .modi m (.raw r)) (fun _ => rfl) _ h)

/-- Units are cut out of their text again exactly if none but the first starts with an attaching code point. -/
theorem segs_iff {C : Cfg} {l : List Moji} (hb : ∀ m ∈ l, Built C m) :
    segs C (lineText l) = l ↔ TailTidy C l := by
  constructor
  · intro h
    rw [← h, segs_eq]
    exact segN_tidy _ _ _ (by intro m hm; cases hm)
  · exact segs_line hb

theorem tidy_units {C : Cfg} {l : List Moji} (hb : ∀ m ∈ l, Built C m) :
    TailTidy C l ↔ ∀ u ∈ (l.map Moji.write).tail, ¬ Joins C (decodeRune u).1 := by
  rw [← List.map_tail]
  constructor
  · intro h u hu
    obtain ⟨m, hm, rfl⟩ := List.mem_map.mp hu
    rw [← orphan_iff (hb m (List.mem_of_mem_tail hm))]
    exact h m hm
  · intro h m hm
    rw [orphan_iff (hb m (List.mem_of_mem_tail hm))]
    exact h _ (List.mem_map.mpr ⟨m, hm, rfl⟩)

theorem units_inj {C : Cfg} {a b : List Moji} (ha : ∀ m ∈ a, Built C m) (hb : ∀ m ∈ b, Built C m)
    (h : a.map Moji.write = b.map Moji.write) : a = b := by
  induction a generalizing b with
  | nil => simpa using h.symm
  | cons x a ih =>
    cases b with
    | nil => simp at h
    | cons y b =>
      simp only [List.map_cons, List.cons.injEq] at h
      rw [(ha x (by simp)).write_inj (hb y (by simp)) h.1,
        ih (fun m hm => ha m (by simp [hm])) (fun m hm => hb m (by simp [hm])) h.2]

/-! ## Kill and yank -/

theorem at_of_ed {s : St} {a z : List Moji} (h : s.ed.At a z) : At s (a.map Moji.write) (z.map Moji.write) :=
  ⟨by rw [St.units_eq]; rw [show s.line = a ++ z from h.line]; simp, by rw [List.length_map]; exact h.cursor⟩


/-- What a killing command leaves, whatever the line. -/
theorem kill_leads {E : Env} {s s1 : St} {c : Cmd} {rc1 : Result} {l r : List Bytes}
    (hk : c = .killLine ∨ c = .unixLineDiscard ∨ c = .unixWordRubout) (hat : At s l r)
    (ho1 : Leads s1 (Ed.call E.logic c s.ed).1) (hrc : rc1 = (Ed.call E.logic c s.ed).2) :
    ∃ a m z : List Moji, Kills c l r (a.map Moji.write) (m.map Moji.write) (z.map Moji.write) ∧
      s.line = a ++ m ++ z ∧ s1.ed.At a z ∧ s1.clip = E.clipSet s.clip (lineText m) ∧ rc1 = .cont := by
  obtain ⟨ml, mr, ha, rfl, rfl⟩ := hat.ed
  have hline : s.line = ml ++ mr := ha.line
  have hrc' : rc1 = .cont := by rw [hrc]; rcases hk with rfl | rfl | rfl <;> rfl
  have main : ∀ (a m z : List Moji), (Ed.call E.logic c s.ed).1.At a z →
      (Ed.call E.logic c s.ed).1.clip = E.logic.clipSet s.clip (lineText m) →
      s1.ed.At a z ∧ s1.clip = E.clipSet s.clip (lineText m) := by
    intro a m z hA hcl
    exact ⟨⟨ho1.line.trans hA.line, ho1.cursor.trans hA.cursor⟩, by rw [ho1.clip, hcl]; rfl⟩
  rcases hk with rfl | rfl | rfl
  · obtain ⟨g1, g2⟩ := main ml mr [] ha.killLine (by simp [Ed.call, Ed.killLine, ha.drop]; rfl)
    exact ⟨ml, mr, [], .line, by simpa using hline, g1, g2, hrc'⟩
  · have hx : (Ed.call E.logic .unixLineDiscard s.ed).1.At [] mr := by
      simp only [Ed.call]
      apply Ed.At.predict
      refine ⟨?_, rfl⟩
      have := Ed.delete_left (l := []) (ha.setClip (c := E.logic.clipSet s.ed.clip
        (lineText (s.ed.line.take s.ed.cursor.toNat))))
      simpa using this
    obtain ⟨g1, g2⟩ := main [] ml mr hx
      (by simp only [Ed.call, Ed.predict_clip, Ed.delete_clip, ha.take]; rfl)
    exact ⟨[], ml, mr, .discard, by simpa using hline, g1, g2, hrc'⟩
  · obtain ⟨k1, k2, -⟩ := ha.wordRubout (L := E.logic)
    obtain ⟨g1, g2⟩ := main (ml.take (Ed.rubPos E.logic ml)) (ml.drop (Ed.rubPos E.logic ml)) mr k1 k2
    refine ⟨_, _, mr, ?_, by rw [List.take_append_drop]; exact hline, g1, g2, hrc'⟩
    have := Kills.rubout (a := (ml.take (Ed.rubPos E.logic ml)).map Moji.write)
      (m := (ml.drop (Ed.rubPos E.logic ml)).map Moji.write) (r := mr.map Moji.write)
    rwa [← List.map_append, List.take_append_drop] at this

/-- The same for a command that is carried out. -/
theorem kill_split {E : Env} {s s1 : St} {c : Cmd} {rc1 : Result} {l r : List Bytes}
    (hk : c = .killLine ∨ c = .unixLineDiscard ∨ c = .unixWordRubout) (hat : At s l r)
    (h1 : Performs E c s s1 rc1) :
    ∃ a m z : List Moji, Kills c l r (a.map Moji.write) (m.map Moji.write) (z.map Moji.write) ∧
      s.line = a ++ m ++ z ∧ s1.ed.At a z ∧ s1.clip = E.clipSet s.clip (lineText m) ∧ rc1 = .cont := by
  have hbi : c.builtin = true := by rcases hk with rfl | rfl | rfl <;> rfl
  obtain ⟨i, x, ho, hr⟩ := h1.leads hbi
  exact kill_leads (s := s.but i x) hk (hat.but i x) ho hr

/-- What a kill and an immediate Yank do to any line: the text between the two parts that stay is cut into units
anew, without its trailing CR, LF and NUL. -/
theorem C10_exact {E : Env} {s s1 s2 : St} {c : Cmd} {rc1 rc2 : Result} {l r : List Bytes}
    (hclip : ∀ o t, E.clipSet o t = some t)
    (hk : c = .killLine ∨ c = .unixLineDiscard ∨ c = .unixWordRubout) (hat : At s l r)
    (h1 : Performs E c s s1 rc1) (h2 : Performs E .yank s1 s2 rc2) :
    ∃ a m z u, Kills c l r a m z ∧ At s1 a z ∧ s1.clip = some m.flatten ∧ Trimmed m.flatten u ∧
      At s2 (a ++ (segs E.cfg u).map Moji.write) z ∧ s2.clip = some m.flatten := by
  obtain ⟨a, m, z, hkl, hsplit, hA, hcl, -⟩ := kill_split hk hat h1
  obtain ⟨i, x, ho2, -⟩ := h2.leads rfl
  have hA' : (s1.but i x).ed.At a z := ⟨hA.line, hA.cursor⟩
  have hc1 : s1.clip = some (lineText m) := hcl.trans (hclip _ _)
  have hed : (s1.but i x).ed.clip = some (lineText m) := hc1
  have hy : Ed.At (Ed.call E.logic .yank (s1.but i x).ed).1 (a ++ segs E.cfg (trimRightCRLFNUL (lineText m))) z := by
    simp only [Ed.call]
    rw [hed]
    dsimp only
    rw [hA'.cursor]
    apply Ed.At.replace (m := [])
    simpa using hA'
  refine ⟨_, _, _, _, hkl, ?_, hc1, trim_ok _, ?_, ?_⟩
  · exact at_of_ed hA
  · simpa [lineText, List.flatMap] using ho2.at hy
  · rw [ho2.clip]
    simp only [Ed.call]
    rw [hed]
    simp only [Ed.replace, Ed.predict_clip, Ed.insert, Ed.delete_clip]
    exact hed

/-- Exactly when the line comes back: if no unit that was killed, but the first of them, starts with an attaching code
point. -/
theorem C10_iff {E : Env} {w : World} {s s1 s2 : St} {c : Cmd} {rc1 rc2 : Result}
    {l r : List Bytes} (hb : BuiltinKeys E) (hre : Reachable E w s)
    (hclip : ∀ o t, E.clipSet o t = some t)
    (hk : c = .killLine ∨ c = .unixLineDiscard ∨ c = .unixWordRubout) (hat : At s l r)
    (h1 : Performs E c s s1 rc1) (hnl : ∀ t, s1.clip = some t → NoNewlineEnd t)
    (h2 : Performs E .yank s1 s2 rc2) :
    ∃ a m z, Kills c l r a m z ∧ s.units = a ++ m ++ z ∧ At s1 a z ∧ s2.clip = some m.flatten ∧
      (s2.units = s.units ↔ ∀ u ∈ m.tail, ¬ Joins E.cfg (decodeRune u).1) ∧
      ((∀ u ∈ m.tail, ¬ Joins E.cfg (decodeRune u).1) → At s2 (a ++ m) z) := by
  have hbuilt := reachable_built hb hre
  obtain ⟨a, m, z, hkl, hsplit, hA, hcl, -⟩ := kill_split hk hat h1
  have hc1 : s1.clip = some (lineText m) := hcl.trans (hclip _ _)
  have hbm : ∀ x ∈ m, Built E.cfg x := fun x hx => hbuilt x (by rw [hsplit]; simp [hx])
  obtain ⟨i, x, ho2, -⟩ := h2.leads rfl
  have hA' : (s1.but i x).ed.At a z := ⟨hA.line, hA.cursor⟩
  have hed : (s1.but i x).ed.clip = some (lineText m) := hc1
  have hy : Ed.At (Ed.call E.logic .yank (s1.but i x).ed).1 (a ++ segs E.cfg (lineText m)) z :=
    kill_yank hA' hed (hnl _ hc1) rfl
  have hline2 : s2.line = a ++ segs E.cfg (lineText m) ++ z := ho2.line.trans hy.line
  have hiff : segs E.cfg (lineText m) = m ↔ ∀ u ∈ (m.map Moji.write).tail, ¬ Joins E.cfg (decodeRune u).1 :=
    (segs_iff hbm).trans (tidy_units hbm)
  refine ⟨_, _, _, hkl, by rw [St.units_eq, hsplit]; simp, at_of_ed hA, ?_, ?_, ?_⟩
  · rw [ho2.clip]
    simp only [Ed.call]
    rw [hed]
    simp only [Ed.replace, Ed.predict_clip, Ed.insert, Ed.delete_clip]
    exact hed
  · rw [← hiff]
    constructor
    · intro h
      rw [St.units_eq, St.units_eq, hline2, hsplit, List.map_append, List.map_append, List.map_append,
        List.map_append] at h
      have h := List.append_cancel_left (List.append_cancel_right h)
      exact units_inj (segs_built _ _) hbm h
    · intro h
      rw [St.units_eq, St.units_eq, hline2, hsplit, h]
  · intro h
    have := ho2.at hy
    rw [hiff.mpr h] at this
    simpa using this

theorem C10_partial {E : Env} {w : World} {s s1 s2 : St} {c : Cmd} {rc1 rc2 : Result}
    {l r : List Bytes} (hb : BuiltinKeys E) (hre : Reachable E w s) (ht : Tidy E.cfg s)
    (hclip : ∀ o t, E.clipSet o t = some t)
    (hk : c = .killLine ∨ c = .unixLineDiscard ∨ c = .unixWordRubout) (hat : At s l r)
    (h1 : Performs E c s s1 rc1) (hnl : ∀ t, s1.clip = some t → NoNewlineEnd t)
    (h2 : Performs E .yank s1 s2 rc2) :
    ∃ a m z, Kills c l r a m z ∧ At s1 a z ∧ At s2 (a ++ m) z ∧ s2.units = s.units ∧
      s2.clip = some m.flatten := by
  obtain ⟨a, m, z, g1, g2, g3, g4, g5, g6⟩ := C10_iff hb hre hclip hk hat h1 hnl h2
  have hm : ∀ u ∈ m.tail, ¬ Joins E.cfg (decodeRune u).1 := by
    intro u hu
    apply ht
    rw [g2]
    cases m with
    | nil => cases hu
    | cons x m =>
      have hu : u ∈ m := hu
      cases a <;> simp [hu]
  exact ⟨a, m, z, g1, g3, g6 hm, g5.mpr hm, g4⟩

section
open Example
/-- Ctrl-K, Ctrl-U and Ctrl-W in the middle of a line, and Ctrl-Y. -/
example :
    let go (ks : List String) (n : Nat) := look (after (env full) { input := keys (["a", " ", "👩", "‍", "🚀", "あ", " ", "b", "\x02"] ++ ks) } (n + 9))
    [go ["\x0b"] 1, go ["\x0b", "\x19"] 2, go ["\x15"] 1, go ["\x15", "\x19"] 2, go ["\x17"] 1, go ["\x17", "\x19"] 2] =
    [.inr ([b "a", b " ", b "👩‍🚀", b "あ", b " "], 5, 0),
     .inr ([b "a", b " ", b "👩‍🚀", b "あ", b " ", b "b"], 6, 0),
     .inr ([b "b"], 0, 0),
     .inr ([b "a", b " ", b "👩‍🚀", b "あ", b " ", b "b"], 5, 0),
     .inr ([b "a", b " ", b "👩‍🚀", b "b"], 3, 0),
     .inr ([b "a", b " ", b "👩‍🚀", b "あ", b " ", b "b"], 5, 0)] := by decide +kernel

/-- A joiner typed at the start of the line and text before it: the killed text is cut differently
when it comes back. -/
theorem C10_refuted_orphan :
    let w : World := { input := keys ["🏽", "\x01", "a", "\x05", "\x15", "\x19"] }
    look (after (env full) w 4) = .inr ([b "a", b "🏽"], 2, 0) ∧
    look (after (env full) w 5) = .inr ([], 0, 0) ∧
    look (after (env full) w 6) = .inr ([b "a🏽"], 1, 0) := by decide +kernel

/-- A killed line feed does not come back. -/
theorem C10_newline :
    let w : World := { input := keys ["a", "\x11", "\x0a", "\x15", "\x19"] }
    look (after (env plain) w 2) = .inr ([b "a", b "\n"], 2, 0) ∧
    look (after (env plain) w 4) = .inr ([b "a"], 1, 0) := by decide +kernel
end
end Readline
