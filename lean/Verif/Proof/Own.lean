import Verif.Proof.Observe
import Verif.Spec.Own
/-!
# What own commands that follow the rules preserve
-/
namespace Readline
open Spec

variable {E : Env} {w : World} {s : St}

/-- A panic that has to be expected of a command, also of one that calls completion commands. -/
def Panic.foreseen (E : Env) (p : Panic) : Prop := p.known E ∨ ∃ c, p.crash c

/-- Everything but the positions. -/
structure LogInv (E : Env) (s : St) (hs : List (List Moji)) : Prop where
  hist : s.histOk E
  ed : Ed.Inv E.logic s.ed hs

theorem LogInv.fits {hs : List (List Moji)} (h : LogInv E s hs) :
    ∀ u rest, s.undoes = u :: rest → u.fits s.len := by
  intro u rest hu
  have hl := h.ed.log
  have : s.ed.undoes = u :: rest := hu
  rw [this] at hl
  cases hs with
  | nil => exact hl.elim
  | cons x hs =>
    have h1 := hl.1
    rw [← ed_len]
    exact h1

theorem LogInv.tailTidy {hs : List (List Moji)} (h : LogInv E s hs) (ht : Tidy E.cfg s) :
    TailTidy E.cfg s.line := tailTidy_of h.ed.built ht

theorem builtin_of {c : Cmd} (h : ∀ f, c ≠ .custom f) : c.builtin = true := by
  cases c with
  | custom f => exact absurd rfl (h f)
  | _ => rfl

/-- The panics of an allowed call. -/
theorem act_wp {a : Api} {hs : List (List Moji)} (hA : Allowed E.cfg a s) (h : LogInv E s hs) :
    Wp (Panic.foreseen E) (a.run E s) (fun _ => True) := by
  have any : ∀ {α} {x : M α} {f : α → M (St × Reply)} {P : α → Prop}, Wp (Panic.known E) x P →
      (∀ a, ∃ b, f a = .ok b) → Wp (Panic.foreseen E) (x >>= f) (fun _ => True) := by
    intro α x f P hx hf
    refine Wp.bind (Wp.mono (Wp.weaken hx fun _ h => Or.inl h) ?_)
    intro a _ _
    obtain ⟨b, hb⟩ := hf a
    rw [hb]
    trivial
  have ok : ∀ {x : St × Reply}, Wp (Panic.foreseen E) (pure x) (fun _ => True) := trivial
  cases a with
  | insertString pos t => exact any (insertString_wp hA.1 hA.2) fun a => ⟨_, rfl⟩
  | delete pos n => exact any (deleteCells_wp hA.1) fun a => ⟨_, rfl⟩
  | resetViewStart => exact ok
  | getWidthBetween a b => exact any (widthBetween_wp (P := fun _ => True) hA.1 hA.2.1 hA.2.2 trivial) fun a => ⟨_, rfl⟩
  | subString a b => exact any (subString_wp (P := fun _ => True) hA.1 hA.2.1 hA.2.2 trivial) fun a => ⟨_, rfl⟩
  | currentWordTop => exact any (currentWordTop_wp hA.1 hA.2) fun a => ⟨_, rfl⟩
  | currentWord =>
    refine any (P := fun _ => True) ?_ fun a => ⟨_, rfl⟩
    unfold currentWord
    refine Wp.bind (Wp.mono (currentWordTop_wp hA.1 hA.2) ?_)
    intro t _ ht
    exact Wp.bind (subString_wp ht.1 ht.2 hA.2 trivial)
  | getKey => exact ok
  | insertAndRepaint t => exact any (replaceAndRepaint_wp hA.1 (Int.le_refl _) hA.2) fun a => ⟨_, rfl⟩
  | gotoHead => exact ok
  | drawFromHead => exact any (Wp.weaken (repaint_wp E s hA) Panic.isTab.known) fun a => ⟨_, rfl⟩
  | replaceAndRepaint pos t => exact any (replaceAndRepaint_wp hA.1 hA.2.1 hA.2.2.1.2) fun a => ⟨_, rfl⟩
  | repaintAfterPrompt => exact any (resetRepaint_wp E s hA.1 hA.2) fun a => ⟨_, rfl⟩
  | repaintAll => exact any (Wp.weaken (repaintAll_wp hA) Panic.isTab.known) fun a => ⟨_, rfl⟩
  | repaintLastLine =>
    refine any (P := fun _ => True) ?_ fun a => ⟨_, rfl⟩
    unfold repaintLastLine
    cases E.prompt <;>
    exact Wp.weaken (Wp.mono (repaint_wp E _ hA) (fun _ _ _ => trivial)) Panic.isTab.known
  | setCursor n => exact ok
  | setViewStart n => exact ok
  | setBuffer cs => exact hA.elim
  | write t => exact ok
  | call c =>
    refine Wp.bind (Wp.mono (Wp.weaken (call_wp (builtin_of hA.1) hA.2.1 h.hist (fun _ => h.fits)) ?_) ?_)
    · rintro p (h | h)
      · exact Or.inl h
      · exact Or.inr ⟨_, h⟩
    · intro _ _ _; trivial

/-- What an allowed call that does not panic does. -/
theorem act_inv {a : Api} {hs : List (List Moji)} (hA : Allowed E.cfg a s) (h : LogInv E s hs)
    {s' : St} {r : Reply} (hr : a.run E s = .ok (s', r)) :
    ∃ hs', LogInv E s' hs' ∧ ActSnap a s.line hs s'.line hs' ∧
      ((s.line :: hs).getLastD [] = [] → (s'.line :: hs').getLastD [] = []) ∧
      s'.input.Sublist s.input := by
  have hlen : s.ed.line.length = s.len := by rw [← ed_len]; rfl
  have push : ∀ s' : St, edits a → s'.histPtr = s.histPtr → s'.input = s.input →
      Ed.Inv E.logic s'.ed (s.line :: hs) →
      ∃ hs', LogInv E s' hs' ∧ ActSnap a s.line hs s'.line hs' ∧
      ((s.line :: hs).getLastD [] = [] → (s'.line :: hs').getLastD [] = []) ∧
      s'.input.Sublist s.input := by
    intro s' he h1 h2 h3
    refine ⟨_, ⟨?_, h3⟩, .push he, fun h => by simpa [List.getLastD_cons] using h, by rw [h2]; exact List.Sublist.refl _⟩
    unfold St.histOk
    rw [h1]
    exact h.hist
  have keep : ∀ s' : St, (∀ c, a ≠ .call c) → (edits a → ∃ p n, a = .delete p n) →
      s'.histPtr = s.histPtr → s'.input.Sublist s.input → s'.line = s.line → s'.undoes = s.undoes →
      ∃ hs', LogInv E s' hs' ∧ ActSnap a s.line hs s'.line hs' ∧
      ((s.line :: hs).getLastD [] = [] → (s'.line :: hs').getLastD [] = []) ∧
      s'.input.Sublist s.input := by
    intro s' hc he h1 h2 h3 h4
    refine ⟨hs, ⟨?_, ?_, ?_⟩, .keep hc he h3, by rw [h3]; exact id, h2⟩
    · unfold St.histOk
      rw [h1]
      exact h.hist
    · show ∀ m ∈ s'.line, _
      rw [h3]; exact h.ed.built
    · show UndoLog _ s'.undoes s'.line hs
      rw [h3, h4]; exact h.ed.log
  have keepEd : ∀ s' : St, (∀ c, a ≠ .call c) → (edits a → ∃ p n, a = .delete p n) →
      s'.ed = s.ed ∨ s'.ed = Ed.predict E.logic s.ed →
      ∃ hs', LogInv E s' hs' ∧ ActSnap a s.line hs s'.line hs' ∧
      ((s.line :: hs).getLastD [] = [] → (s'.line :: hs').getLastD [] = []) ∧
      s'.input.Sublist s.input := by
    intro s' hc he hx
    have h1 : s'.ed.histPtr = s.ed.histPtr ∧ s'.ed.input = s.ed.input ∧ s'.ed.line = s.ed.line ∧
        s'.ed.undoes = s.ed.undoes := by
      rcases hx with hx | hx <;> rw [hx] <;> simp
    exact keep s' hc he h1.1 (by have := h1.2.1; show s'.ed.input.Sublist s.ed.input; rw [this]; exact List.Sublist.refl _)
      h1.2.2.1 h1.2.2.2
  have repl : ∀ (s' : St) (pos : Int) (t : Bytes), 0 ≤ pos → pos ≤ s.cursor → s.cursor ≤ s.len →
      (pos ≠ s.cursor → Tidy E.cfg s) →
      ((∃ t, a = .insertAndRepaint t) ∨ ∃ p t, a = .replaceAndRepaint p t) →
      s'.ed = Ed.replace E.logic s.ed pos t →
      ∃ hs', LogInv E s' hs' ∧ ActSnap a s.line hs s'.line hs' ∧
      ((s.line :: hs).getLastD [] = [] → (s'.line :: hs').getLastD [] = []) ∧
      s'.input.Sublist s.input := by
    intro s' pos t h0 h1 h2 ht ha he
    have hed : edits a := by rcases ha with ⟨t, rfl⟩ | ⟨p, t, rfl⟩ <;> trivial
    have hf := Ed.replace_frame E.logic s.ed pos t
    have hp : s'.histPtr = s.histPtr := by
      have := congrArg Ed.histPtr he
      exact this.trans (by
        simp only [Ed.replace, Ed.predict_histPtr, Ed.insert]
        unfold Ed.delete
        split <;> rfl)
    have hin : s'.input = s.input := (congrArg Ed.input he).trans hf.input
    by_cases hx : pos = s.cursor
    · subst hx
      obtain ⟨hl, hi | ⟨hn, hi⟩⟩ := Ed.replace_inv (L := E.logic) (e := s.ed) (hs := hs) t h.ed h0
        (by rw [hlen]; exact h2)
      · exact push s' hed hp hin (by rw [he]; exact hi)
      · refine ⟨hs, ⟨?_, by rw [he]; exact hi⟩, .merge ha hn ⟨_, _, (congrArg Ed.line he).trans hl⟩, ?_, by rw [hin]; exact List.Sublist.refl _⟩
        · unfold St.histOk
          rw [hp]
          exact h.hist
        · intro hl
          cases hs with
          | nil => exact absurd rfl hn
          | cons x hs => simpa [List.getLastD_cons] using hl
    · have hr := Ed.replace_push (L := E.logic) (e := s.ed) (hs := hs) t h.ed (h.tailTidy (ht hx)) pos.toNat
        (by show _ < s.cursor; omega) (by show s.cursor ≤ _; rw [hlen]; exact h2)
      rw [show ((pos.toNat : Nat) : Int) = pos by omega] at hr
      exact push s' hed hp hin (by rw [he]; exact hr)
  cases a with
  | insertString pos t =>
    obtain ⟨⟨s1, cs⟩, h1, hr⟩ := bind_ok.mp hr
    simp only [pure_ok, Prod.mk.injEq] at hr
    obtain ⟨rfl, -⟩ := hr
    obtain ⟨⟨h2, h3⟩, h4, -, -, ⟨b, u, h5⟩, -⟩ := insertString_ok h1
    simp only at h4 h5
    refine push _ trivial (by rw [h5]) (by rw [h5]) ?_
    rw [h4]
    exact ⟨Ed.insert_built pos t h.ed.built, Ed.insert_log pos t h2 (by rw [hlen]; exact h3) h.ed.log⟩
  | delete pos n =>
    obtain ⟨⟨s1, cs⟩, h1, hr⟩ := bind_ok.mp hr
    simp only [pure_ok, Prod.mk.injEq] at hr
    obtain ⟨rfl, -⟩ := hr
    obtain ⟨h4, ⟨b, u, h5⟩, -, -⟩ := deleteCells_ok h1
    simp only at h4 h5
    rcases Ed.delete_tidy h.ed (h.tailTidy hA.2) pos n hA.1 with hx | hx
    · exact keepEd _ nofun (fun _ => ⟨pos, n, rfl⟩) (Or.inl (h4.trans hx))
    · exact push _ trivial (by rw [h5]) (by rw [h5]) (by rw [h4]; exact hx)
  | resetViewStart =>
    cases hr
    exact keepEd _ nofun nofun (Or.inl rfl)
  | getWidthBetween x y =>
    obtain ⟨_, h1, hr⟩ := bind_ok.mp hr
    cases hr
    exact keepEd _ nofun nofun (Or.inl rfl)
  | subString x y =>
    obtain ⟨_, h1, hr⟩ := bind_ok.mp hr
    cases hr
    exact keepEd _ nofun nofun (Or.inl rfl)
  | currentWordTop =>
    obtain ⟨_, h1, hr⟩ := bind_ok.mp hr
    cases hr
    exact keepEd _ nofun nofun (Or.inl rfl)
  | currentWord =>
    obtain ⟨_, h1, hr⟩ := bind_ok.mp hr
    cases hr
    exact keepEd _ nofun nofun (Or.inl rfl)
  | getKey =>
    cases hr
    have h1 := (getKey_ed s).1
    have h2 : (getKey s).2.ed = (Ed.getKey s.ed).2 := congrArg Prod.snd h1
    have h3 := Ed.getKey_ed_fields s.ed
    have h4 := Ed.getKey_input s.ed
    rw [← h2] at h3 h4
    refine keep _ nofun nofun ?_ h4 h3.1 h3.2.1
    have := (getKey_ed s).2.ed
    exact congrArg Ed.histPtr this
  | insertAndRepaint t =>
    obtain ⟨_, h1, hr⟩ := bind_ok.mp hr
    cases hr
    exact repl _ _ t hA.1 (Int.le_refl _) hA.2 (fun h => absurd rfl h) (Or.inl ⟨t, rfl⟩) (insertAndRepaint_ed h1)
  | gotoHead =>
    cases hr
    exact keepEd _ nofun nofun (Or.inl rfl)
  | drawFromHead =>
    obtain ⟨_, h1, hr⟩ := bind_ok.mp hr
    cases hr
    exact keepEd _ nofun nofun (Or.inr (repaint_ed h1))
  | replaceAndRepaint pos t =>
    obtain ⟨_, h1, hr⟩ := bind_ok.mp hr
    cases hr
    exact repl _ pos t hA.1 hA.2.1 hA.2.2.1.2 (fun _ => hA.2.2.2) (Or.inr ⟨pos, t, rfl⟩) (replaceAndRepaint_ed h1)
  | repaintAfterPrompt =>
    obtain ⟨_, h1, hr⟩ := bind_ok.mp hr
    cases hr
    unfold repaintAfterPrompt at h1
    exact keepEd _ nofun nofun (Or.inr ((repaint_ed h1).trans (by rw [resetViewStart_ed])))
  | repaintAll =>
    obtain ⟨_, h1, hr⟩ := bind_ok.mp hr
    cases hr
    exact keepEd _ nofun nofun (Or.inr (repaintAll_ed h1))
  | repaintLastLine =>
    obtain ⟨_, h1, hr⟩ := bind_ok.mp hr
    cases hr
    exact keepEd _ nofun nofun (Or.inr (repaintLastLine_ed h1))
  | setCursor n =>
    cases hr
    exact keep _ nofun nofun rfl (List.Sublist.refl _) rfl rfl
  | setViewStart n =>
    cases hr
    exact keepEd _ nofun nofun (Or.inl rfl)
  | setBuffer cs => exact hA.elim
  | write t =>
    cases hr
    exact keepEd _ nofun nofun (Or.inl rfl)
  | call c =>
    obtain ⟨⟨s1, rc⟩, h1, hr⟩ := bind_ok.mp hr
    simp only [pure_ok, Prod.mk.injEq] at hr
    obtain ⟨rfl, -⟩ := hr
    have hb := builtin_of hA.1
    obtain ⟨hs', hinv, hsnap⟩ := Ed.call_inv (L := E.logic) (e := s.ed) (hs := hs) hb h.ed
      (Int.le_trans hA.2.1.1 hA.2.1.2.1) (by rw [hlen]; exact hA.2.1.2.2) (h.tailTidy hA.2.2.1)
      (by
        intro hsw hx
        apply hA.2.2.2 hsw
        have hx1 : s.cursor = s.ed.line.length := hx.1
        have hx2 : 2 ≤ s.ed.line.length := hx.2
        rw [hlen] at hx1
        unfold St.len at hx1 hlen
        exact ⟨hx1, by omega⟩)
    have hf : s1.ed.line = (Ed.call E.logic c s.ed).1.line ∧ s1.ed.undoes = (Ed.call E.logic c s.ed).1.undoes ∧
        s1.ed.histPtr = (Ed.call E.logic c s.ed).1.histPtr ∧ s1.ed.input = (Ed.call E.logic c s.ed).1.input := by
      rcases (call_ed hb h1).1 with e | ⟨-, e⟩ <;> simp only at e <;> rw [e] <;> simp
    have hl : s1.line = (Ed.call E.logic c s.ed).1.line := hf.1
    refine ⟨hs', ⟨?_, ?_, ?_⟩, .call rfl (by rw [hl]; exact hsnap), ?_, ?_⟩
    · unfold St.histOk
      rw [show s1.histPtr = _ from hf.2.2.1]
      exact Ed.call_histOk E.logic _ _ h.hist.1 h.hist.2
    · rw [hf.1]; exact hinv.built
    · rw [hf.1, hf.2.1]; exact hinv.log
    · intro hlast
      by_cases hc : c = .interrupt
      · subst hc
        cases hsnap with
        | clear _ => rw [hl]; rfl
        | keep h1 _ =>
          have : (Ed.call E.logic .interrupt s.ed).1.undoes = [] := rfl
          have hlg := hinv.log
          rw [this] at hlg
          cases hs with
          | nil => rw [hl]; rfl
          | cons x xs => exact hlg.elim
        | push h1 _ =>
          have : (Ed.call E.logic .interrupt s.ed).1.undoes = [] := rfl
          have hlg := hinv.log
          rw [this] at hlg
          exact hlg.elim
        | pushEmpty h1 => rcases h1 with h1 | h1 <;> cases h1
        | pushJoin h1 => exact h1.elim
        | merge h1 => rcases h1 with h1 | h1 | h1 <;> cases h1
        | undo h1 => cases h1
      · rw [hl, hsnap.last hc]; exact hlast
    · show s1.ed.input.Sublist s.ed.input
      rw [hf.2.2.2]
      exact Ed.call_input E.logic c s.ed

/-- A lawful program keeps everything. -/
theorem own_wp {p : Own} {hs : List (List Moji)} (h : LogInv E s hs) (ho : Obeys E p s) :
    Wp (Panic.foreseen E) (p.run E s) (fun q => q.1.inside ∧ q.1.input.Sublist s.input ∧
      ∃ hs', LogInv E q.1 hs' ∧ OwnSnap E St.line p s hs q.1 hs' ∧
        ((s.line :: hs).getLastD [] = [] → (q.1.line :: hs').getLastD [] = [])) := by
  induction p generalizing s hs with
  | ret r => exact ⟨ho, List.Sublist.refl _, hs, h, .ret, id⟩
  | look next ih =>
    refine Wp.mono (ih s h ho) ?_
    rintro ⟨s', r⟩ _ ⟨h1, h2, hs', h3, h4, h5⟩
    exact ⟨h1, h2, hs', h3, .look h4, h5⟩
  | act a next ih =>
    refine Wp.bind (Wp.mono (act_wp ho.1 h) ?_)
    rintro ⟨s1, r⟩ h1 _
    obtain ⟨hs1, h2, h3, h4, h5⟩ := act_inv ho.1 h h1
    refine Wp.mono (ih r h2 (ho.2 s1 r h1)) ?_
    rintro ⟨s', rc⟩ _ ⟨k1, k2, hs', k3, k4, k5⟩
    exact ⟨k1, k2.trans h5, hs', k3, .act h1 h3 k4, fun h => k5 (h4 h)⟩

end Readline
