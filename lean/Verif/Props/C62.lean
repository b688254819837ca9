import Verif.Spec.Shell
import Verif.Model.Shell
import Verif.Props.C16
import Verif.Props.C18
import Verif.Props.C20
import Verif.Props.C39
import Verif.Props.C49
import Verif.Props.C03
import Verif.Proof.Waits
/-!
# C62: a line entered before can be entered again

The program of examples/example3.go calls `ReadLine` again and again and adds each line to the
history.  A user enters lines by typing them, by n times Up, by searching for a word, or by typing
the beginning and accepting the prediction (`Spec.Enters`), with resizes at any time.

`C62_line_partial`: such events make `ReadLine` return that line.  `C62_partial`: when the program
ends, its history is the list of lines the user meant (`Spec.Script`), if it ends and does not
panic.  `C62_ends`: it ends.  `C62_returns_partial`: with the default keys, plain texts and no
Ctrl-T it does not panic, whatever keys are pressed.  `C62_texts_partial`: both together.
`C62_screen`: each call writes behind what the calls before it have written, and leaves the cursor shown.
`C62_refuted`: a line with a loose joiner comes back as another line.
-/
namespace Readline
open Spec

/-! ## Stages of a call -/

/-- A call that has a state in which an event does not end it goes on from the next state. -/
theorem loop_next {E : Env} {n : Nat} {s : St} {p : St × RLRes} (h : loop E n s = .ok p)
    (hx : ∀ q, step E s = .ok q → q.2 = none) :
    ∃ s1 m, step E s = .ok (s1, none) ∧ loop E m s1 = .ok p := by
  obtain ⟨q, hq, h⟩ := loop_steps h
  have h0 := hx q hq
  rcases h with ⟨r, hr, -⟩ | ⟨m, -, -, h⟩
  · rw [h0] at hr; cases hr
  · exact ⟨q.1, m, by rw [hq, ← h0], h⟩

/-- The key that inserts itself. -/
theorem step_types {E : Env} {s s1 : St} {k : Bytes} {rest : List Ev} {o : Option RLRes} (hi : s.input = .key k :: rest)
    (hk : lookupCommand E k = .selfInsert k) (h : step E s = .ok (s1, o)) :
    o = none ∧ s1.ed = Ed.type E.logic { s.ed with input := rest } k := by
  obtain ⟨ho, he⟩ := (step_key_ed hi hk rfl h).1 (by simp [Ed.call])
  rcases he with he | ⟨hx, -⟩
  · exact ⟨ho, he⟩
  · cases hx

/-- What a stage leaves alone. -/
structure Leaves (s s1 : St) : Prop where
  histPtr : s1.histPtr = s.histPtr
  modHist : s1.modHist = s.modHist
  clip : s1.clip = s.clip

theorem Leaves.of_frame {s s1 : St} {e : Ed} {rest : List Ev} (h : s1.ed = e)
    (hf : Ed.Frame { s.ed with input := rest } e) : Leaves s s1 ∧ s1.input = rest := by
  subst h
  exact ⟨⟨hf.histPtr, hf.modHist, hf.clip⟩, hf.input⟩

theorem Leaves.trans {a b c : St} (h : Leaves a b) (h' : Leaves b c) : Leaves a c :=
  ⟨h'.1.trans h.1, h'.2.trans h.2, h'.3.trans h.3⟩

theorem step_resizes {E : Env} {s s1 : St} {w : Int} {rest : List Ev} {o : Option RLRes}
    (hi : s.input = .resize w :: rest) (h : step E s = .ok (s1, o)) :
    o = none ∧ s1.ed = Ed.predict E.logic { s.ed with input := rest } :=
  step_resize_ed hi h

/-- Typing: only the line and the prediction change. -/
theorem loop_typed {E : Env} {evs : List Ev} {ks : List (List Char)} (ht : Types E evs ks) {fin : List Ev}
    {n : Nat} {s : St} {p : St × RLRes} (hi : s.input = evs ++ fin) (hfr : Ed.Fresh E.logic s.ed)
    (h : loop E n s = .ok p) :
    ∃ s1 m, loop E m s1 = .ok p ∧ Leaves s s1 ∧ s1.input = fin ∧ Ed.Fresh E.logic s1.ed ∧
      ∀ b done, Typing E.cfg b done s.ed → Fits E.cfg b ks →
        ∃ b', Typing E.cfg b' (done ++ ks.flatten) s1.ed ∧ Fits E.cfg b' [] := by
  induction ht generalizing s n with
  | nil => exact ⟨s, n, h, ⟨rfl, rfl, rfl⟩, hi, hfr, fun b done hty hf => ⟨b, by simpa using hty, hf⟩⟩
  | @resize evs ks w ht ih =>
    have hi : s.input = .resize w :: (evs ++ fin) := hi
    obtain ⟨s1, m, h1, h⟩ := loop_next h (fun q hq => (step_resize_ed hi hq).1)
    have he := (step_resizes hi h1).2
    obtain ⟨hk, hin⟩ := Leaves.of_frame he (Ed.predict_frame E.logic _)
    obtain ⟨s2, m2, h2, k2, i2, f2, t2⟩ := ih hin (by rw [he]; exact Ed.predict_fresh _) h
    refine ⟨s2, m2, h2, hk.trans k2, i2, f2, fun b done hty hf => t2 b done ?_ hf⟩
    rw [he]
    exact Typing.predict (L := E.logic) ⟨hty.built, hty.cursor, hty.text, hty.mode⟩
  | @key evs ks k hk ha ht ih =>
    have hi : s.input = .key (utf8 k) :: (evs ++ fin) := hi
    obtain ⟨s1, m, h1, h⟩ := loop_next h (fun q hq => (step_types hi hk hq).1)
    have he := (step_types hi hk h1).2
    obtain ⟨hkp, hin⟩ := Leaves.of_frame he (Ed.type_frame E.logic _ _)
    have hf1 : Ed.Fresh E.logic s1.ed := by
      rw [he]
      have h0 : Ed.Fresh E.logic { s.ed with input := evs ++ fin } := Ed.fresh_of hfr rfl rfl
      exact Ed.type_fresh h0 _
    obtain ⟨s2, m2, h2, k2, i2, f2, t2⟩ := ih hin hf1 h
    refine ⟨s2, m2, h2, hkp.trans k2, i2, f2, fun b done hty hf => ?_⟩
    obtain ⟨b', hty1, hf'⟩ := type_typing (L := E.logic) (e := { s.ed with input := evs ++ fin })
      ⟨hty.built, hty.cursor, hty.text, hty.mode⟩ hf ha
    rw [← he] at hty1
    obtain ⟨b2, hty2, hf2⟩ := t2 b' _ hty1 hf'
    exact ⟨b2, by simpa using hty2, hf2⟩

/-- The end: Enter returns the line as it is. -/
theorem loop_accept {E : Env} {rs rest : List Ev} {enter : Bytes} (hrs : resizesIn rs = rs)
    (hen : lookupCommand E enter = .acceptLine) {n : Nat} {s : St} {p : St × RLRes}
    (hi : s.input = rs ++ .key enter :: rest) (h : loop E n s = .ok p) :
    p.2 = ⟨s.text, .nil⟩ ∧ p.1.input = rest ∧ p.1.cursor = s.cursor ∧ p.1.clip = s.clip := by
  induction rs generalizing s n with
  | nil =>
    have hi : s.input = .key enter :: rest := hi
    obtain ⟨q, hq, h⟩ := loop_steps h
    obtain ⟨ho, hed⟩ := (step_key_ed hi hen rfl hq).2 (by simp [Ed.call])
    rcases h with ⟨r, hr, rfl⟩ | ⟨m, -, h0, -⟩
    · rw [ho] at hr
      injection hr with hr
      refine ⟨?_, congrArg Ed.input hed, congrArg Ed.cursor hed, congrArg Ed.clip hed⟩
      show r = _
      rw [← hr, St.text_eq]
      rfl
    · rw [h0] at ho; cases ho
  | cons x rs ih =>
    cases x with
    | key k =>
      have := congrArg List.length hrs
      have hle : ∀ l : List Ev, (resizesIn l).length ≤ l.length := by
        intro l
        induction l with
        | nil => simp [resizesIn]
        | cons y l ih => cases y <;> simp [resizesIn] <;> omega
      have h2 := hle rs
      simp only [resizesIn, List.length_cons] at this
      omega
    | err y =>
      have := congrArg List.length hrs
      have hle : ∀ l : List Ev, (resizesIn l).length ≤ l.length := by
        intro l
        induction l with
        | nil => simp [resizesIn]
        | cons y l ih => cases y <;> simp [resizesIn] <;> omega
      have h2 := hle rs
      simp only [resizesIn, List.length_cons] at this
      omega
    | resize w =>
      have hi : s.input = .resize w :: (rs ++ .key enter :: rest) := hi
      obtain ⟨s1, m, h1, h⟩ := loop_next h (fun q hq => (step_resize_ed hi hq).1)
      have he := (step_resizes hi h1).2
      obtain ⟨hk, hin⟩ := Leaves.of_frame he (Ed.predict_frame E.logic _)
      have hrs' : resizesIn rs = rs := by
        rw [resizesIn] at hrs
        exact (List.cons.inj hrs).2
      obtain ⟨a1, a2, a3, a4⟩ := ih hrs' hin h
      have hl : s1.line = s.line := by
        have := congrArg Ed.line he; simp only [Ed.predict_line] at this; exact this
      have hc : s1.cursor = s.cursor := by
        have := congrArg Ed.cursor he; simp only [Ed.predict_cursor] at this; exact this
      refine ⟨?_, a2, a3.trans hc, a4.trans hk.clip⟩
      rw [a1, St.text_eq, St.text_eq, hl]

/-! ## Up -/

/-- After `j` times Up from the end of the history. -/
structure Fetched (E : Env) (j : Nat) (s : St) : Prop where
  histPtr : s.histPtr = (E.history.length : Int) - j
  modHist : ∀ i, i < s.histPtr → s.modHist i = none
  line : 0 < j → s.line = segs E.cfg (E.history.getD (E.history.length - j) []) ∧ s.cursor = s.line.length

theorem loop_ups {E : Env} {ups : List Ev} {k : Nat} (hp : Presses E .previousHistory ups k) {fin : List Ev}
    {n j : Nat} {s : St} {p : St × RLRes} (hi : s.input = ups ++ fin) (hj : j + k ≤ E.history.length)
    (hf : Fetched E j s) (h : loop E n s = .ok p) :
    ∃ s1 m, loop E m s1 = .ok p ∧ Fetched E (j + k) s1 ∧ s1.input = fin ∧ s1.clip = s.clip := by
  induction hp generalizing s n j with
  | nil => exact ⟨s, n, h, hf, hi, rfl⟩
  | @resize evs k w _ ih =>
    have hi : s.input = .resize w :: (evs ++ fin) := hi
    obtain ⟨s1, m, h1, h⟩ := loop_next h (fun q hq => (step_resize_ed hi hq).1)
    have he := (step_resizes hi h1).2
    obtain ⟨hk, hin⟩ := Leaves.of_frame he (Ed.predict_frame E.logic _)
    have hl : s1.line = s.line := by
      have := congrArg Ed.line he; simp only [Ed.predict_line] at this; exact this
    have hc : s1.cursor = s.cursor := by
      have := congrArg Ed.cursor he; simp only [Ed.predict_cursor] at this; exact this
    obtain ⟨s2, m2, h2, f2, i2, c2⟩ := ih hin hj
      ⟨hk.histPtr ▸ hf.histPtr, by rw [hk.histPtr, hk.modHist]; exact hf.modHist, by rw [hl, hc]; exact hf.line⟩ h
    exact ⟨s2, m2, h2, f2, i2, c2.trans hk.clip⟩
  | @key evs k key hk _ ih =>
    have hi : s.input = .key key :: (evs ++ fin) := hi
    obtain ⟨s1, m, h1, h⟩ := loop_next h (fun q hq => ((step_key_ed hi hk rfl hq).1 (by simp [Ed.call])).1)
    have he' := ((step_key_ed hi hk rfl h1).1 (by simp [Ed.call])).2
    have he : s1.ed = Ed.prevHist E.logic { s.ed with input := evs ++ fin } := by
      rcases he' with he | ⟨hx, -⟩
      · exact he
      · cases hx
    have hp0 : 0 < s.histPtr := by rw [hf.histPtr]; omega
    have hp1 : s.histPtr ≤ E.history.length := by rw [hf.histPtr]; omega
    have hup : up E.logic.history.length E.logic.historyCycling s.histPtr = s.histPtr - 1 := by
      unfold up
      have : ¬ ((E.logic.history.length : Int) ≤ 0) := by
        show ¬ ((E.history.length : Int) ≤ 0); omega
      rw [if_neg this, if_pos hp0]
    generalize heq : ({ s.ed with input := evs ++ fin } : Ed) = e at he
    have e0 : e.histPtr = s.histPtr := by rw [← heq]; rfl
    rcases Ed.prevHist_spec (L := E.logic) (e := e) (by omega) (by rw [e0]; exact hp1) with ⟨hx, -⟩ | ⟨-, e1, hx, hsh⟩
    · rw [e0, hup] at hx; omega
    · rw [e0] at hx hsh
      have hx : e1 = Ed.saveHist E.logic e := by
        rcases hx with ⟨hx, -⟩ | ⟨hz, -⟩
        · exact hx
        · omega
      subst hx
      rw [hup] at hsh
      rw [hsh] at he
      obtain ⟨g1, g2, g3⟩ : (Ed.saveHist E.logic e).clip = s.clip ∧ (Ed.saveHist E.logic e).input = evs ++ fin ∧
          ∀ i, i ≠ s.histPtr → (Ed.saveHist E.logic e).modHist i = s.modHist i := by
        refine ⟨?_, ?_, fun i hne => ?_⟩
        · unfold Ed.saveHist; split <;> (rw [← heq]; rfl)
        · unfold Ed.saveHist; split <;> rw [← heq]
        · rw [Ed.saveHist_modHist (by rw [e0]; exact hne), ← heq]; rfl
      generalize hst : ({ Ed.saveHist E.logic e with histPtr := s.histPtr - 1 } : Ed) = t at he
      have t1 : t.histPtr = s.histPtr - 1 := by rw [← hst]
      have t2 : ∀ i, i < t.histPtr + 1 → t.modHist i = none := by
        intro i hi
        have : t.modHist i = (Ed.saveHist E.logic e).modHist i := by rw [← hst]
        rw [this, g3 i (by omega)]
        exact hf.modHist i (by omega)
      have hframe : (Ed.showHist E.logic t).histPtr = t.histPtr ∧ (Ed.showHist E.logic t).modHist = t.modHist ∧
          (Ed.showHist E.logic t).clip = t.clip ∧ (Ed.showHist E.logic t).input = t.input := by
        unfold Ed.showHist Ed.killWhole
        dsimp only
        split <;> simp [Ed.insert]
      obtain ⟨l1, l2⟩ := Ed.showHist_line (L := E.logic) (e := t)
      rw [← he] at hframe l1 l2
      obtain ⟨f1, f2, f3, f4⟩ := hframe
      have hget : Ed.getHist E.logic t = E.history.getD (E.history.length - (j + 1)) [] := by
        rw [Ed.getHist_eq, t2 _ (by omega), t1, Option.getD_none, if_pos (by omega), List.getD_eq_getElem?_getD]
        have : (s.histPtr - 1).toNat = E.history.length - (j + 1) := by rw [hf.histPtr]; omega
        rw [this]
        rfl
      rw [hget] at l1 l2
      have p1 : s1.histPtr = s.histPtr - 1 := f1.trans t1
      obtain ⟨s2, m2, h2, ff2, i2, c2⟩ := ih (s := s1) (j := j + 1) (by rw [show s1.input = t.input from f4, ← hst]; exact g2) (by omega)
        ⟨by rw [p1, hf.histPtr]; omega, fun i hi => by
          rw [show s1.modHist = t.modHist from f2]
          exact t2 i (by rw [p1] at hi; omega), fun _ => ⟨l1, by
            rw [show s1.cursor = _ from l2, show s1.line = _ from l1]⟩⟩ h
      refine ⟨s2, m2, h2, ?_, i2, c2.trans ?_⟩
      · rw [show j + (k + 1) = j + 1 + k by omega]; exact ff2
      · rw [show s1.clip = t.clip from f3, ← hst]; exact g1

/-! ## One line -/

theorem ctl_key {c : Char} {k : Bytes} (hc : ¬ isCtl c.toNat) (hk : isCtl (decodeRune k).1) : utf8 [c] ≠ k := by
  rintro rfl
  rw [decodeRune_utf8] at hk
  exact hc hk

theorem hunt_text {E : Env} (word : List Char) (hw : ∀ c ∈ word, ¬ isCtl c.toNat) (g : Hunt) :
    ((word.map fun c => utf8 [c]).foldl (Hunt.key E) g).text = g.text ++ word.map Char.toNat := by
  induction word generalizing g with
  | nil => simp
  | cons c word ih =>
    have hc := hw c List.mem_cons_self
    rw [List.map_cons, List.foldl_cons, ih (fun d hd => hw d (List.mem_cons_of_mem _ hd))]
    have : (Hunt.key E g (utf8 [c])).text = g.text ++ [c.toNat] := by
      unfold Hunt.key
      rw [if_neg, if_neg (ctl_key hc (by decide +kernel)), if_neg (ctl_key hc (by decide +kernel)),
        if_neg (by rw [decodeRune_utf8]; exact hc), decodeRune_utf8]
      · unfold Hunt.newest Hunt.first
        cases List.find? (fun i => occurs E.toUpper (encodeRunes (g.text ++ [c.toNat])) (E.history.getD i []))
          (List.range E.history.length).reverse <;> rfl
      · rintro (h | h)
        · exact ctl_key hc (by decide +kernel) h
        · exact ctl_key hc (by decide +kernel) h
    rw [this]
    simp

theorem keys_inside {word : List Char} (hw : ∀ c ∈ word, ¬ isCtl c.toNat) :
    Inside (word.map fun c => utf8 [c]) := by
  intro k hk
  obtain ⟨c, hc, rfl⟩ := List.mem_map.mp hk
  have hc := hw c hc
  refine ⟨ctl_key hc (by decide +kernel), ?_⟩
  rintro (h | h | h)
  · exact ctl_key hc (by decide +kernel) h
  · exact ctl_key hc (by decide +kernel) h
  · exact ctl_key hc (by decide +kernel) h

/-- The search for a word shows the newest line with it. -/
theorem hunt_newest {E : Env} {word : List Char} (hne : word ≠ []) (hw : ∀ c ∈ word, ¬ isCtl c.toNat)
    {t : Bytes} (ht : IsNewest (fun t => occurs E.toUpper (utf8 word) t = true) E.history t) :
    (hunt E (word.map fun c => utf8 [c])).shown = t := by
  have htext := hunt_text (E := E) word hw { pos := E.history.length - 1 }
  rw [List.nil_append] at htext
  obtain ⟨older, newer, hh, hocc, hno⟩ := ht
  obtain ⟨ws, c, rfl⟩ : ∃ ws c, word = ws ++ [c] := ⟨word.dropLast, word.getLast hne, (List.dropLast_concat_getLast hne).symm⟩
  have key := C18_newest E (ws.map fun c => utf8 [c]) (utf8 [c])
    (Or.inr (Or.inr (by rw [decodeRune_utf8]; exact hw c (by simp))))
  rw [show (ws.map fun c => utf8 [c]) ++ [utf8 [c]] = (ws ++ [c]).map fun c => utf8 [c] by simp] at key
  dsimp only at key
  have he : encodeRunes (hunt E ((ws ++ [c]).map fun c => utf8 [c])).text = utf8 (ws ++ [c]) := by
    rw [utf8_eq_encodeRunes, ← htext]; rfl
  rw [he] at key
  have hat : E.history[older.length]? = some t := by rw [hh]; simp
  rcases key with ⟨i, h1, h2, h3⟩ | ⟨-, h2⟩
  · rcases Nat.lt_trichotomy i older.length with hlt | heq | hgt
    · have := h3 _ _ hlt hat
      rw [hocc] at this; cases this
    · rw [heq, hat] at h1
      exact (Option.some.inj h1).symm
    · have hx : (hunt E ((ws ++ [c]).map fun c => utf8 [c])).shown ∈ newer := by
        rw [hh, List.getElem?_append_right (by omega)] at h1
        obtain ⟨d, hd⟩ : ∃ d, i - older.length = d + 1 := ⟨i - older.length - 1, by omega⟩
        rw [hd, List.getElem?_cons_succ] at h1
        exact List.mem_of_getElem? h1
      exact absurd h2 (hno _ hx)
  · have := h2 t (by rw [hh]; simp)
    rw [hocc] at this; cases this

/-- The prediction is the rest of the newest line with that beginning. -/
theorem predict_newest {h : List Bytes} {line t : Bytes} (ht : IsNewest (fun t => line <+: t) h (line ++ t)) :
    predictByHistory h line = t := by
  obtain ⟨older, newer, hh, hpre, hno⟩ := ht
  have main : ∀ (l tail : List Bytes), (∀ u ∈ l, ¬ line <+: u) →
      predictLoop line (l ++ (line ++ t) :: tail) = t := by
    intro l tail hl
    induction l with
    | nil =>
      rw [List.nil_append, predictLoop, if_pos (List.isPrefixOf_iff_prefix.mpr hpre)]
      simp
    | cons u l ih =>
      rw [List.cons_append, predictLoop,
        if_neg (fun hx => hl u List.mem_cons_self (List.isPrefixOf_iff_prefix.mp hx))]
      exact ih fun v hv => hl v (List.mem_cons_of_mem _ hv)
  unfold predictByHistory
  rw [hh]
  simp only [List.reverse_append, List.reverse_cons, List.append_assoc, List.singleton_append]
  exact main newer.reverse older.reverse (fun u hu => hno u (by simpa using hu))

theorem utf8_injective {a b : List Char} (h : utf8 a = utf8 b) : a = b := by
  have := congrArg runesOf h
  rw [runesOf_utf8, runesOf_utf8] at this
  exact (List.map_inj_right fun x y h => Char.toNat_inj.mp h).mp this

theorem whole_append {C : Cfg} {a b : List Char} (h : Whole C (a ++ b)) : Whole C b := by
  rcases h with h | ⟨h1, h2⟩
  · exact .inl h
  · refine .inr ⟨fun hx => h1 (List.mem_append_right _ hx), fun hx => h2 ?_⟩
    rw [List.getLast?_append, hx]; rfl

/-- What can be typed is cut without loss when it comes back. -/
theorem fits_whole {C : Cfg} {ks : List (List Char)} {x : Before} (h : Fits C x ks) :
    Whole C ks.flatten ∧ (x = .joiner → ks.flatten ≠ []) := by
  have join : ∀ {a b : List Char}, Whole C a → Whole C b → Whole C (a ++ b) := by
    rintro a b (ha | ⟨a1, a2⟩) hb
    · exact .inl ha
    rcases hb with hb | ⟨b1, b2⟩
    · exact .inl hb
    refine .inr ⟨fun hx => (List.mem_append.mp hx).elim a1 b1, ?_⟩
    rw [List.getLast?_append]
    cases hl : b.getLast? with
    | none => exact a2
    | some c => rw [hl] at b2; exact b2
  induction ks generalizing x with
  | nil =>
    cases x with
    | joiner => exact h.elim
    | nothing => exact ⟨.inr ⟨by simp, by simp⟩, fun h => nomatch h⟩
    | char => exact ⟨.inr ⟨by simp, by simp⟩, fun h => nomatch h⟩
  | cons k ks ih =>
    rw [List.flatten_cons]
    cases x with
    | nothing => exact ⟨join h.1 (ih h.2).1, fun h => nomatch h⟩
    | joiner =>
      obtain ⟨h1, h2, -, h3⟩ := h
      exact ⟨join h2 (ih h3).1, fun _ hx => h1 (List.append_eq_nil_iff.mp hx).1⟩
    | char =>
      refine ⟨?_, fun h => nomatch h⟩
      rcases h with ⟨-, rfl, h3⟩ | ⟨h1, -, h3⟩
      · obtain ⟨i1, i2⟩ := ih h3
        rcases i1 with i1 | ⟨i1, i3⟩
        · exact .inl i1
        · refine .inr ⟨fun hx => ?_, ?_⟩
          · rcases List.mem_append.mp hx with hx | hx
            · revert hx; decide
            · exact i1 hx
          · rw [List.getLast?_append]
            cases hl : ks.flatten.getLast? with
            | none => exact absurd (List.getLast?_eq_none_iff.mp hl) (i2 rfl)
            | some c => rw [hl] at i3; exact i3
      · exact join h1 (ih h3).1

/-- Every line of a list is cut without loss. -/
def WholeLines (C : Cfg) (h : List Bytes) : Prop := ∀ cs, utf8 cs ∈ h → Whole C cs

theorem newest_mem {p : Bytes → Prop} {h : List Bytes} {t : Bytes} (hn : IsNewest p h t) : t ∈ h := by
  obtain ⟨a, b, rfl, -⟩ := hn
  simp

/-- So are the lines that are entered. -/
theorem enters_whole {E : Env} {h : List Bytes} {evs : List Ev} {cs : List Char} (hw : WholeLines E.cfg h)
    (he : Enters E h evs cs) : Whole E.cfg cs := by
  cases he with
  | typed _ hf => exact (fits_whole hf).1
  | up _ _ _ _ hg => exact hw _ (List.mem_of_getElem? hg)
  | search _ _ _ _ _ _ hn => exact hw _ (newest_mem hn)
  | predicted _ _ _ _ _ _ hn => exact hw _ (newest_mem hn)

/-- The events of a line make `ReadLine` return that line. -/
theorem C62_line_partial {E : Env} (hb : BuiltinKeys E) {evs rest : List Ev} {cs : List Char} {enter : Bytes}
    (hwl : WholeLines E.cfg E.history) (he : Enters E E.history evs cs) (hen : lookupCommand E enter = .acceptLine) (hd : E.default = [])
    {w : World} (hc : 0 ≤ w.cursor) (hi : w.input = evs ++ .key enter :: rest) {p : St × RLRes}
    (h : readLine E w = .ok p) :
    p.2 = ⟨utf8 cs, .nil⟩ ∧ p.1.input = rest ∧ 0 ≤ p.1.cursor ∧ p.1.clip = w.clip := by
  have hwc := enters_whole hwl he
  unfold readLine at h
  obtain ⟨s, hs, h⟩ := bind_ok.mp h
  have hed := (startSt_ed hs).1
  have hinp : s.input = evs ++ .key enter :: rest := (startSt_input hs).trans hi
  have hfr : Ed.Fresh E.logic s.ed := by rw [hed]; exact Ed.predict_fresh _
  have hty : Typing E.cfg .nothing [] s.ed := by
    have hd' : E.logic.default = [] := hd
    rw [hed]
    unfold Ed.start
    rw [hd', segs_nil]
    apply Typing.predict (L := E.logic)
    refine ⟨by simp, ?_, rfl, rfl, rfl⟩
    show (if w.cursor > (0 : Nat) then ((0 : Nat) : Int) else w.cursor) = 0
    split <;> omega
  have hclip : s.clip = w.clip := by
    have := congrArg Ed.clip hed
    unfold Ed.start at this
    simp only [Ed.predict_clip] at this
    exact this
  have hhist : s.histPtr = E.history.length ∧ ∀ i, s.modHist i = none := by
    have h1 := congrArg Ed.histPtr hed
    have h2 := congrArg Ed.modHist hed
    unfold Ed.start at h1 h2
    simp only [Ed.predict_histPtr, Ed.predict_modHist] at h1 h2
    exact ⟨h1, fun i => congrFun h2 i⟩
  generalize s.input.length + 1 = n at h
  cases he with
  | @typed _ ks ht hf =>
    obtain ⟨s1, m, h1, k1, i1, f1, t1⟩ := loop_typed ht hinp hfr h
    obtain ⟨b', ty, hf'⟩ := t1 _ _ hty hf
    obtain ⟨a1, a2, a3, a4⟩ := loop_accept (rs := []) rfl hen i1 h1
    have hp : s1.ed.pending = [] := by
      cases b' with
      | nothing => exact ty.mode.2
      | char => exact ty.mode.2
      | joiner => exact hf'.elim
    have ht := ty.text
    rw [hp, List.append_nil] at ht
    refine ⟨?_, a2, ?_, a4.trans (k1.clip.trans hclip)⟩
    · rw [a1, St.text_eq]
      exact congrArg (RLRes.mk · RLErr.nil) (by rw [List.nil_append] at ht; exact ht)
    · rw [a3, show s1.cursor = _ from ty.cursor]; exact Int.natCast_nonneg _
  | @up evs0 ks ups k _ ht hup h0 hle hget =>
    have hw := hwc
    rw [List.append_assoc] at hinp
    obtain ⟨s1, m, h1, k1, i1, f1, t1⟩ := loop_typed ht hinp hfr h
    obtain ⟨s2, m2, h2, f2, i2, c2⟩ := loop_ups hup i1 (j := 0) (by omega)
      ⟨by rw [k1.histPtr, hhist.1]; simp, fun i _ => by rw [k1.modHist]; exact hhist.2 i, by omega⟩ h1
    obtain ⟨a1, a2, a3, a4⟩ := loop_accept (rs := []) rfl hen i2 h2
    obtain ⟨l1, l2⟩ := f2.line (by omega)
    refine ⟨?_, a2, ?_, a4.trans (c2.trans (k1.clip.trans hclip))⟩
    · rw [a1, St.text_eq, l1, Nat.zero_add, List.getD_eq_getElem?_getD, hget]
      exact congrArg (RLRes.mk · RLErr.nil) (whole_text hw)
    · rw [a3, l2]; exact Int.natCast_nonneg _
  | @search evs0 ks k found rs _ word ht hk hn hkeys hne hctl hnew hrs =>
    have hw := hwc
    rw [List.append_assoc] at hinp
    obtain ⟨s1, m, h1, k1, i1, f1, t1⟩ := loop_typed ht hinp hfr h
    have i1' : s1.input = .key k :: (found ++ .key (b "\r") :: (rs ++ .key enter :: rest)) := by
      rw [i1]; simp
    have hcont : ∀ e : Ed, (Ed.call E.logic .isearchBackward e).2 = .cont := fun e => by simp [Ed.call]
    obtain ⟨s2, m2, h2, h⟩ := loop_next h1 (fun q hq => ((step_key_ed i1' hk rfl hq).1 (hcont _)).1)
    have hin : Inside (keysIn found) := by rw [hkeys]; exact keys_inside hctl
    obtain ⟨b1, b2, b3, -⟩ := C18_enter hb i1' hk hn hin rfl h2
    have hrs' : resizesIn (resizesIn found ++ rs) = resizesIn found ++ rs := by
      rw [resizesIn_append, hrs, resizesIn_idem]
    obtain ⟨a1, a2, a3, a4⟩ := loop_accept hrs' hen (by rw [b3, List.append_assoc]) h
    rw [hkeys, hunt_newest hne hctl hnew] at b1
    refine ⟨?_, a2, ?_, a4.trans (b2.trans (k1.clip.trans hclip))⟩
    · rw [a1, St.text_units, b1.units, List.append_nil, ← segs_units]
      refine congrArg (RLRes.mk · RLErr.nil) ?_
      refine Eq.trans ?_ (whole_text hw)
      unfold lineText
      rw [List.flatMap_def]
    · rw [a3, b1.cursor]; exact Int.natCast_nonneg _
  | @predicted evs0 ks k rs cs' hcol hpr ht hf hne hk hnew hrs =>
    have hw := whole_append hwc
    rw [List.append_assoc] at hinp
    obtain ⟨s1, m, h1, k1, i1, f1, t1⟩ := loop_typed ht hinp hfr h
    obtain ⟨b', ty, hf'⟩ := t1 _ _ hty hf
    have hp : s1.ed.pending = [] := by
      cases b' with
      | nothing => exact ty.mode.2
      | char => exact ty.mode.2
      | joiner => exact hf'.elim
    have ht := ty.text
    rw [hp, List.append_nil, List.nil_append] at ht
    have ht' : s1.text = utf8 ks.flatten := by rw [St.text_eq]; exact ht
    have i1' : s1.input = .key k :: (rs ++ .key enter :: rest) := i1
    have hun : s1.units ≠ [] := by
      intro hx
      rw [St.text_units, hx] at ht'
      exact utf8_ne_nil hne ht'.symm
    have hcu : s1.cursor = s1.units.length := by
      rw [show s1.cursor = _ from ty.cursor, St.units_eq, List.length_map]; rfl
    have hpred : E.predict s1.text = utf8 cs' := by
      unfold Env.predict
      rw [hpr, ht']
      rw [utf8_append] at hnew
      exact predict_newest hnew
    have hacc := fun q (hq : step E s1 = .ok q) => fresh_accept (s' := q.1) (o := q.2) hcol f1 i1' hk hcu hun hpred hw hq
    obtain ⟨s2, m2, h2, h⟩ := loop_next h1 (fun q hq => (hacc q hq).1)
    obtain ⟨-, b2, b3, b4, b5⟩ := hacc _ h2
    obtain ⟨a1, a2, a3, a4⟩ := loop_accept hrs hen b4 h
    refine ⟨?_, a2, ?_, a4.trans ?_⟩
    · rw [a1, show s2.text = _ from b2, ht', utf8_append]
    · rw [a3, show s2.cursor = _ from b3]; exact Int.natCast_nonneg _
    · exact (show s2.clip = s1.clip from b5).trans (k1.clip.trans hclip)

/-! ## The program -/

theorem types_history {E : Env} {evs : List Ev} {ks : List (List Char)} (h : Types E evs ks) (l : List Bytes) :
    Types { E with history := l } evs ks := by
  induction h with
  | nil => exact .nil
  | resize _ ih => exact .resize ih
  | key h1 h2 _ ih => exact .key h1 h2 ih

theorem presses_history {E : Env} {c : Cmd} {evs : List Ev} {n : Nat} (h : Presses E c evs n) (l : List Bytes) :
    Presses { E with history := l } c evs n := by
  induction h with
  | nil => exact .nil
  | resize _ ih => exact .resize ih
  | key h1 _ ih => exact .key h1 ih

theorem enters_history {E : Env} {h : List Bytes} {evs : List Ev} {cs : List Char} (he : Enters E h evs cs)
    (l : List Bytes) : Enters { E with history := l } h evs cs := by
  cases he with
  | typed h1 h2 => exact .typed (types_history h1 l) h2
  | up h1 h2 h3 h4 h5 => exact .up (types_history h1 l) (presses_history h2 l) h3 h4 h5
  | search h1 h2 h3 h4 h5 h6 h7 h8 => exact .search (types_history h1 l) h2 h3 h4 h5 h6 h7 h8
  | predicted h1 h2 h3 h4 h5 h6 h7 h8 => exact .predicted h1 h2 (types_history h3 l) h4 h5 h6 h7 h8

/-- Ctrl-D on an empty line ends the program. -/
theorem readLine_abort {E : Env} {w : World} {d : Bytes} {rest : List Ev} (hd : E.default = [])
    (hdd : lookupCommand E d = .deleteOrAbort) (hi : w.input = .key d :: rest) {p : St × RLRes}
    (h : readLine E w = .ok p) : p.2.err = .eof ∧ p.1.input = rest := by
  unfold readLine at h
  obtain ⟨s, hs, h⟩ := bind_ok.mp h
  have hed := (startSt_ed hs).1
  have hinp : s.input = .key d :: rest := (startSt_input hs).trans hi
  have hl : s.line = [] := by
    have := congrArg Ed.line hed
    unfold Ed.start at this
    simp only [Ed.predict_line] at this
    have hd' : E.logic.default = [] := hd
    rw [hd', segs_nil] at this
    exact this
  obtain ⟨q, hq, h⟩ := loop_steps h
  have hcall : Ed.call E.logic .deleteOrAbort { s.ed with input := rest } = ({ s.ed with input := rest }, .abort) := by
    simp only [Ed.call]
    rw [if_neg]
    show ¬ ((s.line.length : Int) > 0)
    rw [hl]; simp
  obtain ⟨ho, he⟩ := (step_key_ed hinp hdd rfl hq).2 (by rw [hcall]; simp)
  rw [hcall] at ho he
  rcases h with ⟨r, hr, rfl⟩ | ⟨m, -, h0, -⟩
  · rw [ho] at hr
    injection hr with hr
    refine ⟨?_, congrArg Ed.input he⟩
    show r.err = _
    rw [← hr]
    rfl
  · rw [h0] at ho; cases ho

/-- Whatever lines a user enters in whatever ways, the program has them as its history when a key ends it. -/
theorem script_runs {E : Env} (hb : BuiltinKeys E) (hd : E.default = []) {keep : Bytes → Bool}
    {h h' : List Bytes} {evs rest : List Ev} {d : Bytes} {err : RLErr} (hs : Script E keep h evs h' (.key d :: rest))
    (hwl : WholeLines E.cfg h) (herr : err ≠ .nil)
    (hdd : ∀ {l w p}, w.input = .key d :: rest → readLine { E with history := l } w = .ok p →
      p.2.err = err ∧ p.1.input = rest) {w : World} (hc : 0 ≤ w.cursor)
    (hi : w.input = evs) {n : Nat}
    {r : Container × RLErr × World} (hr : readLines E keep n ⟨h⟩ w = .ok r) :
    r.1.buffer = h' ∧ r.2.1 = err ∧ r.2.2.input = rest := by
  generalize hleft : Ev.key d :: rest = left at hs
  induction hs generalizing w n with
  | @done h left =>
    subst hleft
    cases n with
    | zero => cases hr
    | succ n =>
      rw [readLines] at hr
      obtain ⟨p, hp, hr⟩ := bind_ok.mp hr
      obtain ⟨a1, a2⟩ := hdd hi hp
      obtain ⟨s, t⟩ := p
      dsimp only at a1 a2 hr
      have hr' : r = (⟨h⟩, t.err, s.world) := by
        cases he : t.err with
        | nil => rw [he] at a1; exact absurd a1.symm herr
        | ctrlC => rw [he] at hr; cases hr; rfl
        | eof => rw [he] at hr; cases hr; rfl
        | tty e => rw [he] at hr; cases hr; rfl
      subst hr'
      exact ⟨rfl, a1, a2⟩
  | @line h evs cs enter rest' h' left he hen _ ih =>
    cases n with
    | zero => cases hr
    | succ n =>
      rw [readLines] at hr
      obtain ⟨p, hp, hr⟩ := bind_ok.mp hr
      have hb' : BuiltinKeys { E with history := h } := hb
      obtain ⟨a1, a2, a3, -⟩ := C62_line_partial hb' hwl (enters_history he h) hen hd hc hi hp
      obtain ⟨s, t⟩ := p
      dsimp only at a1 a2 a3 hr
      subst a1
      dsimp only at hr
      have hwl' : WholeLines E.cfg (if keep (utf8 cs) then h ++ [utf8 cs] else h) := by
        intro ds hds
        split at hds
        · rcases List.mem_append.mp hds with hds | hds
          · exact hwl ds hds
          · rw [List.mem_singleton] at hds
            rw [utf8_injective hds]
            exact enters_whole hwl he
        · exact hwl ds hds
      refine ih (w := s.world) (n := n) hwl' a3 a2 ?_ hleft
      rw [← hr]
      congr 1
      split <;> rfl

/-- Whatever lines a user enters in whatever ways, the program has them as its history when it ends. -/
theorem C62_partial {E : Env} (hb : BuiltinKeys E) (hd : E.default = []) {keep : Bytes → Bool}
    {h h' : List Bytes} {evs rest : List Ev} {d : Bytes} (hs : Script E keep h evs h' (.key d :: rest))
    (hwl : WholeLines E.cfg h) (hdd : lookupCommand E d = .deleteOrAbort) {w : World} (hc : 0 ≤ w.cursor)
    (hi : w.input = evs) {n : Nat}
    {r : Container × RLErr × World} (hr : readLines E keep n ⟨h⟩ w = .ok r) :
    r.1.buffer = h' ∧ r.2.1 = .eof ∧ r.2.2.input = rest :=
  script_runs hb hd hs hwl (by simp)
    (fun {l _ _} h1 h2 => readLine_abort (E := { E with history := l }) hd hdd h1 h2) hc hi hr

/-! ## The program ends -/

/-- A call that returns a line has taken an event. -/
theorem readLine_takes {E : Env} (hb : BuiltinKeys E) {w : World} {p : St × RLRes} (h : readLine E w = .ok p)
    (hn : p.2.err = .nil) : ∃ t x, Reachable E w t ∧ t.input = x :: p.1.input ∧ p.1.cursor = t.cursor ∧
      (x :: p.1.input).Sublist w.input := by
  obtain ⟨t, ht, hst⟩ := readLine_reachable h
  have hle := reachable_input hb ht
  have hend := step_ends hb hst
  generalize hr : p.2 = r at hend hst
  rw [hr] at hn
  cases hend with
  | @enter k rest hi hk =>
    have he := ((step_key_ed hi hk rfl hst).2 (by simp [Ed.call])).2
    have : p.1.input = rest := congrArg Ed.input he
    rw [this]
    exact ⟨t, _, ht, hi, congrArg Ed.cursor he, by rw [hi] at hle; exact hle⟩
  | _ => cases hn

/-- The loop does not run out of fuel: if the program fails, a call of `ReadLine` does. -/
theorem C62_ends {E : Env} (hb : BuiltinKeys E) {keep : Bytes → Bool} {n : Nat} {c : Container} {w : World}
    (hn : w.input.length < n) {p : Panic} (h : readLines E keep n c w = .error p) :
    ∃ l w', readLine { E with history := l } w' = .error p := by
  induction n generalizing c w with
  | zero => omega
  | succ n ih =>
    rw [readLines] at h
    cases hr : readLine { E with history := c.buffer } w with
    | error q => rw [hr] at h; cases h; exact ⟨_, _, hr⟩
    | ok q =>
      obtain ⟨s, r⟩ := q
      rw [hr] at h
      have h : (match r.err with
        | .nil => readLines E keep n (if keep r.text then c.add r.text else c) s.world
        | err => pure (c, err, s.world)) = .error p := h
      cases he : r.err with
      | nil =>
        rw [he] at h
        obtain ⟨-, x, -, -, -, hsub⟩ := readLine_takes (E := { E with history := c.buffer }) hb hr he
        have := hsub.length_le
        rw [List.length_cons] at this
        exact ih (show s.input.length < n by dsimp only at this; omega) h
      | ctrlC => rw [he] at h; cases h
      | eof => rw [he] at h; cases h
      | tty e => rw [he] at h; cases h

/-- The screen: what the calls write comes one after the other, the cursor is shown at every wait for a key and at the end. -/
theorem C62_screen {E : Env} (hb : BuiltinKeys E) {keep : Bytes → Bool} {n : Nat} {c : Container} {w : World}
    {x : Container × RLErr × World} (h : readLines E keep n c w = .ok x) (v : Bool) :
    ∃ t, x.2.2.out = w.out ++ t ∧ waitsSeen v t = true ∧ visible v t = true ∧
      ∃ t', t = t' ++ [.cursorOn, .flush] := by
  induction n generalizing c w v with
  | zero => cases h
  | succ n ih =>
    rw [readLines] at h
    obtain ⟨⟨s, r⟩, hr, h⟩ := bind_ok.mp h
    obtain ⟨t, e, h1, h2, t', e'⟩ := C39 (E := { E with history := c.buffer }) hb hr v
    have h : (match r.err with
        | .nil => readLines E keep n (if keep r.text then c.add r.text else c) s.world
        | err => pure (c, err, s.world)) = .ok x := h
    cases he : r.err with
    | nil =>
      rw [he] at h
      obtain ⟨u, f, g1, g2, u', f'⟩ := ih h true
      refine ⟨t ++ u, ?_, ?_, ?_, t ++ u', by rw [f', List.append_assoc]⟩
      · rw [f, ← List.append_assoc, ← e]; rfl
      · rw [waitsSeen_append, h1, h2, g1]; rfl
      · rw [visible_append, h2, g2]
    | ctrlC => rw [he] at h; cases h; exact ⟨t, e, h1, h2, t', e'⟩
    | eof => rw [he] at h; cases h; exact ⟨t, e, h1, h2, t', e'⟩
    | tty _ => rw [he] at h; cases h; exact ⟨t, e, h1, h2, t', e'⟩

/-- Whatever the keys are bound to, but for completion and commands of the program, the program goes on whatever keys
are pressed, but for those that exchange, and all its lines are plain again. -/
theorem C62_goes_on_partial {E : Env} {keep : Bytes → Bool} {n : Nat} {c : Container} {w : World}
    (hb : BuiltinKeys E) (hcm : ∀ q K, lookupCommand E q ≠ .completion K) (hq : E.predictor = none)
    (hcl : E.clipSet = fun _ t => some t) (hp : E.prompt = none)
    (ht : ∀ t, t = E.default ∨ t ∈ c.buffer ∨ w.clip = some t ∨ FromKey E w t → Over (Plain E.cfg) t)
    (h22 : Plain E.cfg 0x22) (hs : ∀ k, .key k ∈ w.input → lookupCommand E k ≠ .swapChar)
    (hw : 7 < w.termWidth) (hr : ∀ n, .resize n ∈ w.input → 7 < n) (hcur : 0 ≤ w.cursor)
    (hn : w.input.length < n) :
    ∃ r, readLines E keep n c w = .ok r ∧ ∀ t ∈ r.1.buffer, Over (Plain E.cfg) t := by
  induction n generalizing c w with
  | zero => omega
  | succ n ih =>
    have hb' : BuiltinKeys { E with history := c.buffer } := hb
    have ho : Modest (Plain E.cfg) { E with history := c.buffer } w :=
      modest_bound (E := { E with history := c.buffer }) hcm (predictsOver_none hq) hcl hp ht h22 hw hr
    have hsw : ∀ k, .key k ∈ w.input → lookupCommand { E with history := c.buffer } k ≠ .swapChar := hs
    obtain ⟨s, r, h⟩ := C01_bound_partial (E := { E with history := c.buffer }) hb hcm (predictsOver_none hq) hcl hp ht h22 hs hw hr hcur
    obtain ⟨hot, hfrom⟩ := result_from hb' ho.sources h
    have hold : ∀ t ∈ c.buffer, Over (Plain E.cfg) t := fun t h => ht t (Or.inr (Or.inl h))
    rw [readLines, h]
    show ∃ q, (match r.err with
      | .nil => readLines E keep n (if keep r.text then c.add r.text else c) s.world
      | err => pure (c, err, s.world)) = .ok q ∧ _
    cases hre : r.err with
    | ctrlC => exact ⟨_, rfl, hold⟩
    | eof => exact ⟨_, rfl, hold⟩
    | tty e => exact ⟨_, rfl, hold⟩
    | nil =>
      dsimp only
      obtain ⟨t, x, htr, hti, htc, hsub⟩ := readLine_takes hb' h hre
      dsimp only at hti htc hsub
      have hin : s.input.Sublist w.input := (List.sublist_cons_self _ _).trans hsub
      have hlen := hsub.length_le
      rw [List.length_cons] at hlen
      obtain ⟨_, hcalm⟩ := calm_inv hb' hcur (CalmReachable.of_reachable (fun s h => ordinary_calm hb' ho hsw h) htr)
      have hc0 : 0 ≤ s.cursor := by
        rw [htc]
        have := hcalm.inside
        unfold St.inside at this
        omega
      have hwid : s.termWidth = w.termWidth ∨ .resize s.termWidth ∈ w.input := by
        obtain ⟨t', htr', hst⟩ := readLine_reachable h
        have hbb := fun k => BuiltinKeys.builtin hb' k
        exact ((reachable_says hbb true htr').trans ((step_says hbb t').ok hst)).width
      refine ih (c := if keep r.text then c.add r.text else c) (w := s.world) ?_ ?_ ?_ ?_ hc0 (by show s.input.length < n; omega)
      · rintro t (h | h | h | h)
        · exact ht t (Or.inl h)
        · split at h
          · rcases List.mem_append.mp h with h | h
            · exact hold t h
            · rw [List.mem_singleton] at h
              rw [h]; exact hot
          · exact hold t h
        · exact hfrom.clip t h
        · refine ht t (Or.inr (Or.inr (Or.inr ?_)))
          rcases h with ⟨q, hq', hx⟩ | ⟨⟨q, hq', hx⟩, hy⟩
          · exact Or.inl ⟨q, hin.subset hq', hx⟩
          · exact Or.inr ⟨⟨q, hin.subset hq', hx⟩, hin.subset hy⟩
      · exact fun k h => hs k (hin.subset h)
      · show 7 < s.termWidth
        rcases hwid with h | h
        · rw [h]; exact hw
        · exact hr _ h
      · exact fun m h => hr m (hin.subset h)

/-- With the default keys and the default prompt the program goes on whatever keys are pressed, but
for Ctrl-T, and all its lines are plain again. -/
theorem C62_returns_partial {E : Env} {keep : Bytes → Bool} {n : Nat} {c : Container} {w : World}
    (hk : E.keyMap = none) (hg : E.globalKeyMap = defaultGlobalKeyMap) (hq : E.predictor = none)
    (hcl : E.clipSet = fun _ t => some t) (hp : E.prompt = none)
    (ht : ∀ t, t = E.default ∨ t ∈ c.buffer ∨ w.clip = some t ∨ FromKey E w t → Over (Plain E.cfg) t)
    (h22 : Plain E.cfg 0x22) (hs : .key [0x14] ∉ w.input)
    (hw : 7 < w.termWidth) (hr : ∀ n, .resize n ∈ w.input → 7 < n) (hcur : 0 ≤ w.cursor)
    (hn : w.input.length < n) :
    ∃ r, readLines E keep n c w = .ok r ∧ ∀ t ∈ r.1.buffer, Over (Plain E.cfg) t := by
  have hb : BuiltinKeys E := by
    intro k f h
    refine defaultKeys_builtin E.cfg k f ?_
    rw [← h]
    unfold lookupCommand
    rw [hk, hg]
    rfl
  exact C62_goes_on_partial hb (fun _ _ => env_completion hk hg) hq hcl hp ht h22
    (fun k hk' hc' => hs (env_swap hk hg hc' ▸ hk')) hw hr hcur hn

/-- Both together: with the default keys the program run on the events of a script ends with the lines of the
script as its history. -/
theorem C62_texts_partial {E : Env} {keep : Bytes → Bool} {w : World} {h' : List Bytes} {rest : List Ev}
    (hk : E.keyMap = none) (hg : E.globalKeyMap = defaultGlobalKeyMap) (hq : E.predictor = none)
    (hcl : E.clipSet = fun _ t => some t) (hp : E.prompt = none) (hd : E.default = [])
    (ht : ∀ t, w.clip = some t ∨ FromKey E w t → Over (Plain E.cfg) t)
    (h22 : Plain E.cfg 0x22) (hs : .key [0x14] ∉ w.input)
    (hw : 7 < w.termWidth) (hr : ∀ n, .resize n ∈ w.input → 7 < n) (hcur : 0 ≤ w.cursor)
    (hsc : Script E keep [] w.input h' (.key (b "\x04") :: rest)) :
    ∃ w', program E keep w = .ok (⟨h'⟩, .eof, w') ∧ w'.input = rest := by
  have hb : BuiltinKeys E := by
    intro k f h
    refine defaultKeys_builtin E.cfg k f ?_
    rw [← h]
    unfold lookupCommand
    rw [hk, hg]
    rfl
  obtain ⟨r, h1, -⟩ := C62_returns_partial (keep := keep) (c := {}) hk hg hq hcl hp (fun t h => by
    rcases h with h | h | h
    · rw [h, hd]; exact over_nil
    · cases h
    · exact ht t h) h22 hs hw hr hcur (Nat.lt_succ_self _)
  have hdd : lookupCommand E (b "\x04") = .deleteOrAbort := by
    unfold lookupCommand
    have h4 : b "\x04" = [4] := by decide +kernel
    rw [hk, hg, h4]
    rfl
  obtain ⟨a1, a2, a3⟩ := C62_partial hb hd hsc (fun _ h => nomatch h) hdd hcur rfl h1
  obtain ⟨⟨l⟩, err, w'⟩ := r
  dsimp only at a1 a2 a3
  subst a1 a2
  exact ⟨w', h1, a3⟩

namespace Example

def texts (x : M (Container × RLErr × World)) : Option (List Bytes × RLErr) :=
  match x with
  | .ok r => some (r.1.buffer, r.2.1)
  | .error _ => none

def shellEnv : Env := { env plain with predictColor := (b "\x1B[3m", b "\x1B[23m") }

/-- A key that inserts itself. -/
def key (c : Char) : Ev := .key (utf8 [c])

/-- Lines are typed, fetched with Up after something else was typed, searched for, and completed by
the prediction. -/
def shellKeys : List Ev :=
  [key 'l', key 's'] ++ .key [0x0D] ::
  ([key 'c', key 'd'] ++ .key [0x0D] ::
  (([key 'x'] ++ [.key [0x10], .resize 9, .key [0x10]]) ++ .key [0x0D] ::
  (([] ++ .key [0x12] :: ([key 'd'] ++ .key (b "\r") :: [])) ++ .key [0x0D] ::
  (([key 'c'] ++ .key [0x06] :: []) ++ .key [0x0D] :: [.key [0x04]]))))

theorem shell_types {evs : List Ev} {ks : List (List Char)} {c : Char} (hc : c ∈ ['l', 's', 'c', 'd', 'x'])
    (h : Types shellEnv evs ks) : Types shellEnv (key c :: evs) ([c] :: ks) := by
  refine .key ?_ (fun d _ h => by cases h) h
  simp only [List.mem_cons, List.not_mem_nil, or_false] at hc
  rcases hc with rfl | rfl | rfl | rfl | rfl <;> rfl

/-- Not vacuous. -/
theorem shell_script : Script shellEnv (fun _ => true) [] shellKeys
    (["ls", "cd", "ls", "cd", "cd"].map fun s => utf8 s.toList) [.key [0x04]] := by
  have fits : ∀ ks, Fits shellEnv.cfg .nothing ks := fun ks => (fits_plain rfl ks).1
  refine .line (cs := ['l', 's']) (.typed (ks := [['l'], ['s']]) (shell_types (by simp) (shell_types (by simp) .nil)) (fits _)) rfl ?_
  refine .line (cs := ['c', 'd']) (.typed (ks := [['c'], ['d']]) (shell_types (by simp) (shell_types (by simp) .nil)) (fits _)) rfl ?_
  refine .line (cs := ['l', 's']) (.up (ks := [['x']]) (n := 2) (shell_types (by simp) .nil)
    (.key rfl (.resize (.key rfl .nil))) (by decide) (by decide) rfl) rfl ?_
  refine .line (cs := ['c', 'd']) (.search (ks := []) (word := ['d']) .nil rfl (fun x h => by simp [key] at h) rfl (by decide)
    (by decide) ⟨[utf8 ['l', 's']], [utf8 ['l', 's']], rfl, by decide, by decide⟩ rfl) rfl ?_
  refine .line (cs := ['c', 'd']) (.predicted (ks := [['c']]) (cs := ['d']) (by decide +kernel) rfl (shell_types (by simp) .nil) (fits _) (by decide)
    rfl ⟨[utf8 ['l', 's'], utf8 ['c', 'd'], utf8 ['l', 's']], [], rfl, by decide, by decide⟩ rfl) rfl ?_
  exact .done

example : texts (program shellEnv (fun _ => true) { input := shellKeys }) =
    some (["ls", "cd", "ls", "cd", "cd"].map b, .eof) := by decide +kernel

end Example

/-- On a terminal that joins characters a line can be entered that does not come back: a U+200D typed
at the start of the line, and then a letter before it. -/
theorem C62_refuted : Example.texts (program (Example.env Example.full) (fun _ => true)
      { input := Example.keys ["‍", "\x01", "a", "\r", "\x10", "\r", "\x04"] }) =
    some ([b "a‍", b "a‍�"], .eof) := by decide +kernel

end Readline
