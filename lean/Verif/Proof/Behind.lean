import Verif.Proof.Clean
import Verif.Spec.Sign
/-!
# After the prompt only the line is drawn

In an ordinary session the output ends, at every wait for a key, with the prompt followed by output
that stays behind the prompt.
-/
namespace Readline
open Spec

/-- Output that stays behind a prompt of `c` columns. -/
def Spec.Hushed (P : Nat → Prop) (E : Env) (c : Int) : Tok → Prop
  | .lit b => b = E.predictColor.1 ∨ b = E.predictColor.2 ∨ b = [7]
  | .gotoCol n => n = c + 1
  | .glyph m => ∃ r, P r ∧ m = rune2moji E.cfg r 0
  | _ => True

theorem quiet_inks (P : Nat → Prop) (E : Env) (c : Int) : Inks P E c (Hushed P E c) where
  off := trivial
  on := trivial
  flush := trivial
  await := trivial
  erase := trivial
  sgr _ := trivial
  goto := rfl
  glyph r hr := ⟨r, hr, rfl⟩
  color1 := Or.inl rfl
  color2 := Or.inr (Or.inl rfl)
  bell := Or.inr (Or.inr rfl)

/-- The prompt is written where it can be: again, or at the beginning of the output, or after the screen was cleared or a
line feed was written. -/
def Spec.Seated (E : Env) (t : List Tok) (b : Bytes) : Prop :=
  (∃ n, b = signAgain E n) ∨ (∃ n, b = signBytes E n) ∧ (t = [] ∨ ∃ t' b', t = t' ++ [.lit b', .flush] ∧
    (b' = [0x0A] ∨ b' = [0x1B, 0x5B, 0x31, 0x3B, 0x31, 0x48, 0x1B, 0x5B, 0x32, 0x4A]))

/-- The output after `o` ends with a prompt and what stays behind it. -/
def Spec.Behind (P : Nat → Prop) (E : Env) (c : Int) (o : List Tok) (s : St) : Prop :=
  ∃ t b ts, s.out = o ++ (t ++ .lit b :: ts) ∧ (PromptText E b ∧ Seated E t b) ∧ ∀ x ∈ ts, Hushed P E c x

variable {P : Nat → Prop} {E : Env} {c : Int} {o : List Tok} {s s' : St} {w : World}

theorem Spec.Behind.next (h : Behind P E c o s) (h' : Clean P E s.out (Hushed P E c) s') : Behind P E c o s' := by
  obtain ⟨t, b, ts, e, hb, hq⟩ := h
  obtain ⟨us, e', hq'⟩ := h'.out
  refine ⟨t, b, ts ++ us, by rw [e', e]; simp, hb, fun x hx => ?_⟩
  rcases List.mem_append.mp hx with hx | hx
  · exact hq x hx
  · exact hq' x hx

/-- What is written after a prompt. -/
theorem behind_prompt {p : Bytes} (h : Clean P E (s.out ++ [.lit p]) (Hushed P E c) s') (hp : PromptText E p)
    (ho : ∃ t, s.out = o ++ t ∧ Seated E t p) : Behind P E c o s' := by
  obtain ⟨us, e, hq⟩ := h.out
  obtain ⟨t, ho, hpl⟩ := ho
  exact ⟨t, p, us, by rw [e, ho]; simp, ⟨hp, hpl⟩, hq⟩

theorem clean_here (h : ∀ m ∈ s.suffixList, ∃ r, P r ∧ m = rune2moji E.cfg r 0) {Q : Tok → Prop} : Clean P E s.out Q s :=
  ⟨⟨[], by simp, by simp⟩, h⟩

theorem callPromptWriter_text (E : Env) (s : St) : ∃ b, (PromptText E b ∧ ∃ n, b = signBytes E n) ∧ (callPromptWriter E s).2.out = s.out ++ [.lit b] ∧
    (callPromptWriter E s).2.suffix = s.suffix := by
  unfold callPromptWriter PromptText signBytes
  cases E.prompt with
  | none => exact ⟨_, ⟨Or.inl rfl, 0, rfl⟩, rfl, rfl⟩
  | some p => exact ⟨_, ⟨⟨s.promptN, Or.inl rfl⟩, s.promptN, rfl⟩, rfl, rfl⟩

section
variable (hS : Ed.Src P E.logic) (hP : ∀ r, P r → Plain E.cfg r) (hc : ∀ n, promptWidth E n = c)
include hS hP hc

theorem repaintAll_behind (h : Easy P E c s) (hh : ∀ m ∈ s.suffixList, ∃ r, P r ∧ m = rune2moji E.cfg r 0)
    (ho : ∃ t b', s.out = o ++ (t ++ [.lit b']) ∧ (b' = [0x0A] ∨ b' = [0x1B, 0x5B, 0x31, 0x3B, 0x31, 0x48, 0x1B, 0x5B, 0x32, 0x4A])) :
    Wp Any (repaintAll E s) (Behind P E c o) := by
  unfold repaintAll
  dsimp only
  obtain ⟨b, ⟨hb, hsb⟩, e, e2⟩ := callPromptWriter_text E (s.emit .flush)
  have hn : Neat P E c s.out (fun _ => True) s := ⟨h, clean_here hh⟩
  have h1 := prompt_neat hS hP hc ⟨trivial, trivial, trivial, trivial, trivial, fun _ => trivial, trivial, fun _ _ => trivial, trivial, trivial, trivial⟩
    ⟨⟨trivial, trivial, trivial, trivial, trivial, fun _ => trivial, trivial, fun _ _ => trivial, trivial, trivial, trivial⟩,
      fun _ _ => trivial, trivial, trivial⟩ (hn.emit (s' := s.emit .flush) trivial)
  refine (repaint_clean hS hP hc (quiet_inks P E c) (o := (s.emit .flush).out ++ [.lit b]) (Q := Hushed P E c)
    ⟨h1.easy, ⟨⟨[], by simp [e], by simp⟩, h1.clean.hint⟩⟩).mono fun s' _ h' => behind_prompt h' hb ?_
  obtain ⟨t, b', ho, hb'⟩ := ho
  exact ⟨t ++ [.lit b', .flush], by show s.out ++ [.flush] = _; rw [ho]; simp, .inr ⟨hsb, .inr ⟨t, b', rfl, hb'⟩⟩⟩

theorem repaintLastLine_behind (h : Easy P E c s) (hh : ∀ m ∈ s.suffixList, ∃ r, P r ∧ m = rune2moji E.cfg r 0)
    (ho : ∃ t, s.out = o ++ t) : Wp Any (repaintLastLine E s) (Behind P E c o) := by
  have ho : ∃ t, (s.emit .flush).out = o ++ t := by
    obtain ⟨t, ho⟩ := ho
    exact ⟨t ++ [.flush], by show s.out ++ [.flush] = _; rw [ho]; simp⟩
  unfold repaintLastLine
  dsimp only
  have key : ∀ (p : Bytes) (s' : St), PromptText E p ∧ (∃ n, p = signAgain E n) → s'.out = (s.emit .flush).out ++ [.lit p] → Easy P E c s' → s'.suffix = s.suffix →
      Wp Any (repaint E s') (Behind P E c o) := by
    intro p s' hp e he e2
    refine (repaint_clean hS hP hc (quiet_inks P E c) (o := (s.emit .flush).out ++ [.lit p]) (Q := Hushed P E c)
      ⟨he, ⟨⟨[], by simp [e], by simp⟩, ?_⟩⟩).mono fun s' _ h' => behind_prompt h' hp.1 (by obtain ⟨t, ho⟩ := ho; exact ⟨t, ho, .inl hp.2⟩)
    unfold St.suffixList
    rw [e2]
    exact hh
  cases hx : E.prompt with
  | none =>
    refine key _ _ ?_ rfl h.of rfl
    unfold PromptText signAgain; rw [hx]; exact ⟨Or.inr rfl, 0, rfl⟩
  | some p =>
    refine key _ _ ?_ rfl h.of rfl
    unfold PromptText signAgain; rw [hx]; exact ⟨⟨s.promptN, Or.inr rfl⟩, s.promptN, rfl⟩

end

theorem everything (P : Nat → Prop) (E : Env) (c : Int) : Emits P E c (fun _ => True) :=
  ⟨⟨trivial, trivial, trivial, trivial, trivial, fun _ => trivial, trivial, fun _ _ => trivial, trivial, trivial, trivial⟩,
    fun _ _ => trivial, trivial, trivial⟩

theorem start_behind (ho : Ordinary P E w) : Wp Any (startSt E w) (Behind P E (promptWidth E w.promptN) w.out) := by
  have hS := ho.sources.src
  have ht : Easy P E (promptWidth E w.promptN) (promptSt E w) := promptSt_easy ho.modest
  have hp : ∃ b, (PromptText E b ∧ ∃ n, b = signBytes E n) ∧ (promptSt E w).out = w.out ++ [.lit b] ∧ (promptSt E w).suffix = none := by
    have hroom := ho.room
    have key : ∀ s0 : St, s0.out = w.out → s0.suffix = none → ∃ b, (PromptText E b ∧ ∃ n, b = signBytes E n) ∧ (callPromptWriter E s0).2.out = w.out ++ [.lit b] ∧
        (callPromptWriter E s0).2.suffix = none := by
      intro s0 e1 e2
      obtain ⟨b, h1, h2, h3⟩ := callPromptWriter_text E s0
      exact ⟨b, h1, by rw [h2, e1], by rw [h3, e2]⟩
    have hwd : ∀ s0 : St, s0.promptN = w.promptN → s0.termWidth = w.termWidth →
        ¬ (callPromptWriter E s0).1 ≥ (callPromptWriter E s0).2.termWidth - 3 := by
      intro s0 e1 e2
      unfold promptWidth at hroom
      unfold callPromptWriter
      cases hx : E.prompt with
      | none =>
        rw [hx] at hroom
        show ¬ (2 : Int) ≥ s0.termWidth - 3
        dsimp only at hroom
        omega
      | some p =>
        rw [hx] at hroom
        show ¬ (mojiWidthAndCount E.cfg (cutEscapeSequenceAndOldLine (p s0.promptN))).1 ≥ s0.termWidth - 3
        dsimp only at hroom
        rw [e1, e2]
        omega
    unfold promptSt
    rw [ho.written]
    dsimp only
    rw [if_neg (hwd _ rfl rfl)]
    exact key _ rfl rfl
  obtain ⟨b, hb, e, e2⟩ := hp
  have hn : Neat P E (promptWidth E w.promptN) (w.out ++ [.lit b]) (Hushed P E (promptWidth E w.promptN)) (promptSt E w) :=
    ⟨ht, ⟨⟨[], by simp [e], by simp⟩, fun m hm => by unfold St.suffixList at hm; rw [e2] at hm; cases hm⟩⟩
  have hQ := quiet_inks P E (promptWidth E w.promptN)
  unfold startSt
  refine Wp.seq (insertString_neat hS ho.plain ho.prompt hQ hn _ ho.sources.default) fun p h1 => ?_
  obtain ⟨s1, n⟩ := p
  dsimp only at h1 ⊢
  refine Wp.seq (P := Clean P E (w.out ++ [.lit b]) (Hushed P E (promptWidth E w.promptN))) ?_ fun s2 h2 =>
    Wp.pure (behind_prompt (s := { out := w.out }) (h2.emit (s' := s2.emit .cursorOn) hQ.on) hb.1 ⟨[], by simp, .inr ⟨hb.2, .inl rfl⟩⟩)
  unfold repaintAfterPrompt
  refine repaint_clean (c := promptWidth E w.promptN) hS ho.plain ho.prompt hQ ?_
  have : Neat P E (promptWidth E w.promptN) (w.out ++ [.lit b]) (Hushed P E (promptWidth E w.promptN)) (if s1.cursor > s1.len then { s1 with cursor := s1.len } else s1) := by
    split
    · exact h1.of
    · exact h1
  exact this.of

/-- In an ordinary session everything after the last prompt stays behind it. -/
theorem ordinary_behind (hb : BuiltinKeys E) (ho : Ordinary P E w) (hx : Plainly P E w) (h : Reachable E w s) :
    Behind P E (promptWidth E w.promptN) w.out s := by
  have hS := ho.sources.src
  induction h with
  | start h => exact (start_behind ho).ok h
  | @step s s' h hst ih =>
    have ht := ordinary_easy hb ho.modest h
    have hcl := ordinary_clean hb ho hx (everything P E _) h
    have hin := reachable_input hb h
    have hout : ∃ t, s.out = w.out ++ t := by obtain ⟨t, e, -⟩ := hcl.out; exact ⟨t, e⟩
    have hQ := quiet_inks P E (promptWidth E w.promptN)
    have hn : Neat P E (promptWidth E w.promptN) s.out (Hushed P E (promptWidth E w.promptN)) s := ⟨ht, clean_here hcl.hint⟩
    unfold step at hst
    cases hi : s.input with
    | nil => rw [hi] at hst; cases hst
    | cons ev rest =>
      rw [hi] at hst
      cases ev with
      | err x => cases hst
      | resize n =>
        dsimp only at hst
        obtain ⟨s1, h1, hst⟩ := bind_ok.mp hst
        cases pure_ok.mp hst
        unfold onResize at h1
        have hw := ho.resized n (hin.subset (by rw [hi]; simp))
        refine (repaintLastLine_behind (c := promptWidth E w.promptN) hS ho.plain ho.prompt ?_ ?_ ?_).ok h1
        · obtain ⟨t, h3, h4⟩ := ht
          exact ⟨⟨t.built, t.line, t.suffix, t.undoes, t.pending, t.whole, t.modHist, t.clip⟩, h3, hw⟩
        · exact hcl.hint
        · exact hout
      | key k =>
        dsimp only at hst
        unfold execCmd at hst
        obtain ⟨⟨s1, rc⟩, h1, hst⟩ := bind_ok.mp hst
        have hk : .key k ∈ w.input := hin.subset (by rw [hi]; simp)
        have hsub : ∀ ev, ev ∈ rest → ev ∈ w.input := fun ev hev => hin.subset (by rw [hi]; exact List.mem_cons_of_mem _ hev)
        have ha := ho.sources.allowed (e := (({ s.emit .await with input := rest } : St).emit .cursorOff).ed) hk hsub
        have hn1 : Neat P E (promptWidth E w.promptN) s.out (Hushed P E (promptWidth E w.promptN))
          ({ s.emit .await with input := rest } : St) := hn.emit hQ.await
        have hn2 : Neat P E (promptWidth E w.promptN) s.out (Hushed P E (promptWidth E w.promptN))
          (({ s.emit .await with input := rest } : St).emit .cursorOff) := hn1.emit hQ.off
        have h2 : Behind P E (promptWidth E w.promptN) w.out s1 := by
          by_cases hd : lookupCommand E k = .clearScreen ∨ lookupCommand E k = .repaintOnNewline
          · have hout2 : ∀ b, ∃ t, ((({ s.emit .await with input := rest } : St).emit .cursorOff).emit (.lit b)).out = w.out ++ (t ++ [.lit b]) := by
              intro b
              obtain ⟨t, e⟩ := hout
              exact ⟨t ++ [.await, .cursorOff], by
                show s.out ++ [.await] ++ [.cursorOff] ++ [.lit b] = _
                rw [e]; simp⟩
            have key : ∀ b s1, (b = [0x0A] ∨ b = [0x1B, 0x5B, 0x31, 0x3B, 0x31, 0x48, 0x1B, 0x5B, 0x32, 0x4A]) → repaintAll E ((({ s.emit .await with input := rest } : St).emit .cursorOff).emit (.lit b)) = .ok s1 →
                Behind P E (promptWidth E w.promptN) w.out s1 := fun b s1 hb h1 =>
              (repaintAll_behind (c := promptWidth E w.promptN) hS ho.plain ho.prompt hn2.easy.of (by exact hcl.hint) (by obtain ⟨t, e⟩ := hout2 b; exact ⟨t, b, e, hb⟩)).ok h1
            rcases hd with hd | hd
            · rw [hd] at h1
              obtain ⟨s2, h3, h4⟩ := bind_ok.mp h1
              cases pure_ok.mp h4
              exact key _ _ (.inr rfl) h3
            · rw [hd] at h1
              obtain ⟨s2, h3, h4⟩ := bind_ok.mp h1
              cases pure_ok.mp h4
              exact key _ _ (.inl rfl) h3
          · exact ih.next ((call_clean (c := promptWidth E w.promptN) hS ho.plain ho.prompt hQ (BuiltinKeys.builtin hb k) ha
              (fun e => ⟨(hx.search k hk e).1, fun q hq => (hx.search k hk e).2 q (hsub _ hq)⟩)
              (fun K e => hx.box k K hk e) (fun h => absurd h hd) hn2).ok h1)
        cases rc
        · cases pure_ok.mp hst
          obtain ⟨t, b, ts, e, h3, h4⟩ := h2
          refine ⟨t, b, ts ++ [.cursorOn], ?_, h3, fun x hx => ?_⟩
          · show s1.out ++ [.cursorOn] = _
            rw [e]; simp
          · rcases List.mem_append.mp hx with hx | hx
            · exact h4 x hx
            · rw [List.mem_singleton.mp hx]; trivial
        · obtain ⟨p, _, hst⟩ := bind_ok.mp hst; cases pure_ok.mp hst
        · obtain ⟨p, _, hst⟩ := bind_ok.mp hst; cases pure_ok.mp hst
        · obtain ⟨p, _, hst⟩ := bind_ok.mp hst; cases pure_ok.mp hst

end Readline
