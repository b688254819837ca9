import Verif.Props.C03
import Verif.Proof.Input
import Verif.Spec.Example
import Verif.Proof.TwinCall
/-!
# C38: colouring, prompt and screen width do not influence the result

Two sessions agree in everything that may influence the text (`E₁.logic = E₂.logic`: character
settings, history, whether predictions are on and which, default text, delimiters, clipboard,
bindings), in the initial `Cursor` and clipboard and in the keys; they may differ in colours,
prompts, line feeds, terminal widths and output.

* `C38_partial`: if predictions are off, or none of the keys runs a command that leaves the
  prediction of the earlier text behind, then the sessions end alike, even if the resizes
  come at different times.
* `C38_words_partial`: if none of the keys is bound to `FORWARD_WORD`, then the sessions end
  alike if the resizes (to different widths) come at the same places.
* `C38_coloring`: for all pairs of `Coloring`s, all keys and resizes, the two sessions end alike -
  both panic in the same way or both return the same - and write the same but for colour sequences.
* `C38_looks`: the same result for editors that differ in colours, prompts of the same width, line
  feeds and earlier output.
* `C38_refuted_width`, `C38_refuted_resize`, `C38_refuted_prompt`: in general, the statement is false.
-/
namespace Readline
open Spec

/-- The commands after which the stored prediction may be that of an earlier text: they change
the text and do not ask the predictor. -/
def Spec.stales : Cmd → Bool
  | .killLine | .killWholeLine | .swapChar | .previousHistory | .nextHistory => true
  | _ => false

namespace Ed
variable {L : Logic}

/-- The prediction is that of the line. -/
def Fresh (L : Logic) (e : Ed) : Prop := predict L e = e

theorem predict_fresh (e : Ed) : Fresh L (predict L e) := by
  unfold Fresh predict
  cases L.predictOn
  · simp
  · simp only [Bool.true_eq_false, if_false]
    by_cases h : e.line.length = 0
    · rw [if_pos h]; dsimp only; rw [if_pos h]
    · rw [if_neg h]; dsimp only; rw [if_neg h]; rfl

theorem fresh_of {e e' : Ed} (h : Fresh L e) (hl : e'.line = e.line) (hs : e'.suffix = e.suffix) :
    Fresh L e' := by
  unfold Fresh predict at h ⊢
  cases hp : L.predictOn
  · simp
  · rw [hp] at h
    simp only [Bool.true_eq_false, if_false] at h ⊢
    unfold Ed.text at *
    rw [hl]
    by_cases h0 : e.line.length = 0
    · rw [if_pos h0] at h ⊢
      have : e.suffix = none := by rw [← h]
      cases e'; simp_all
    · rw [if_neg h0] at h ⊢
      have := congrArg Ed.suffix h
      dsimp only at this
      cases e'; simp_all

theorem fresh_off (h : L.predictOn = false) (e : Ed) : Fresh L e := by
  unfold Fresh predict; rw [if_pos h]

theorem backspace_fresh {e : Ed} (h : Fresh L e) : Fresh L (backspace L e) := by
  unfold backspace
  split
  · exact predict_fresh _
  · exact h

theorem type_fresh {e : Ed} (h : Fresh L e) (k : Bytes) : Fresh L (type L e k) := by
  unfold type
  dsimp only
  split
  · exact backspace_fresh (fresh_of h rfl rfl)
  · split
    · exact predict_fresh _
    · split <;> exact predict_fresh _

theorem getKey_fresh {e : Ed} (h : Fresh L e) : Fresh L (getKey e).2 := by
  unfold getKey
  split
  · exact fresh_of h rfl rfl
  · exact fresh_of h rfl rfl
  · exact h

theorem searchLoop_fresh (n : Nat) (it : ISt) {e : Ed} (h : Fresh L e) :
    Fresh L (searchLoop L n it e) := by
  induction n generalizing it e with
  | zero => exact h
  | succ n ih =>
    rw [searchLoop]
    have hk := getKey_fresh h
    cases hg : getKey e with
    | mk k e' =>
      rw [hg] at hk
      cases k with
      | none => exact hk
      | some k =>
        dsimp only
        split
        · exact ih _ hk
        · split
          · exact predict_fresh _
          · split
            · exact hk
            · split
              · exact ih _ hk
              · split
                · exact ih _ hk
                · split
                  · exact ih _ hk
                  · exact ih _ hk

theorem call_fresh {c : Cmd} (hc : stales c = false) {e : Ed} (h : Fresh L e)
    (hr : (call L c e).2 = .cont) : Fresh L (call L c e).1 := by
  cases c with
  | killLine => cases hc
  | killWholeLine => cases hc
  | swapChar => cases hc
  | previousHistory => cases hc
  | nextHistory => cases hc
  | interrupt => cases hr
  | acceptLine => cases hr
  | backwardChar =>
    simp only [call]
    split
    · exact h
    · exact predict_fresh _
  | endOfLine => exact fresh_of h rfl rfl
  | forwardChar =>
    simp only [call]
    split
    · split
      · exact predict_fresh _
      · exact h
    · exact fresh_of h rfl rfl
  | backwardDeleteChar => exact backspace_fresh h
  | deleteOrAbort =>
    simp only [call]
    split
    · exact predict_fresh _
    · exact h
  | quotedInsert =>
    simp only [call]
    have hk := getKey_fresh h
    cases hg : getKey e with
    | mk k e' =>
      rw [hg] at hk
      cases k with
      | none => exact hk
      | some k => exact type_fresh hk k
  | yank =>
    simp only [call]
    split
    · exact h
    · exact predict_fresh _
  | yankWithQuote =>
    simp only [call]
    split
    · exact h
    · exact predict_fresh _
  | undo =>
    simp only [call, undo]
    split
    · exact h
    · exact predict_fresh _
  | forwardWord => exact fresh_of h rfl rfl
  | isearchBackward => exact searchLoop_fresh _ _ h
  | selfInsert k => exact type_fresh h k
  | custom f => exact h
  | completion P =>
    show Fresh L (complete L P e)
    rcases complete_cases L P e with hc | hc | ⟨pos, t, -, -, hc⟩ <;> rw [hc]
    · exact h
    · exact predict_fresh _
    · exact predict_fresh _
  | _ => exact predict_fresh _

end Ed

theorem lookupCommand_logic {E₁ E₂ : Env} (h : E₁.logic = E₂.logic) (k : Bytes) :
    lookupCommand E₁ k = lookupCommand E₂ k := by
  unfold lookupCommand
  have h1 : E₁.keyMap = E₂.keyMap := congrArg Logic.keyMap h
  have h2 : E₁.globalKeyMap = E₂.globalKeyMap := congrArg Logic.globalKeyMap h
  rw [h1, h2]

/-- What two ends have in common. -/
def Alike (f : List Ev → List Ev) (p q : St × RLRes) : Prop :=
  p.2 = q.2 ∧ Ed.see f p.1.ed = Ed.see f q.1.ed

theorem Ed.see_withInput {f} {e₁ e₂ : Ed} (h : Ed.see f e₁ = Ed.see f e₂) {i₁ i₂ : List Ev}
    (hi : f i₁ = f i₂) : Ed.see f (e₁.withInput i₁) = Ed.see f (e₂.withInput i₂) := by
  have h' := congrArg (fun e => e.withInput (f i₁)) h
  have h1 : Ed.see f (e₁.withInput i₁) = (Ed.see f e₁).withInput (f i₁) := rfl
  have h2 : Ed.see f (e₂.withInput i₂) = (Ed.see f e₂).withInput (f i₂) := rfl
  rw [h1, h2, ← hi]
  exact h'

theorem Ed.see_suffix {f} {e₁ e₂ : Ed} (h : Ed.see f e₁ = Ed.see f e₂) :
    Ed.see f { e₁ with suffix := none } = Ed.see f { e₂ with suffix := none } :=
  congrArg (fun e : Ed => { e with suffix := none }) h

/-- A key in two states that look alike. -/
theorem step_alike {f} (hf : Blind f) {E₁ E₂ : Env} (hL : E₁.logic = E₂.logic) (hb : BuiltinKeys E₁)
    {s₁ s₂ : St} {k : Bytes} {r₁ r₂ : List Ev} (hi₁ : s₁.input = .key k :: r₁)
    (hi₂ : s₂.input = .key k :: r₂) (hr : f r₁ = f r₂) (he : Ed.see f s₁.ed = Ed.see f s₂.ed)
    (hw : lookupCommand E₁ k = .forwardWord → Ed.Fresh E₁.logic s₁.ed ∧ Ed.Fresh E₁.logic s₂.ed)
    {p₁ p₂ : St × Option RLRes} (h₁ : step E₁ s₁ = .ok p₁) (h₂ : step E₂ s₂ = .ok p₂) :
    p₁.2 = p₂.2 ∧ Ed.see f p₁.1.ed = Ed.see f p₂.1.ed := by
  have hb2 : (lookupCommand E₁ k).builtin = true := BuiltinKeys.builtin hb k
  obtain ⟨a1, b1⟩ := step_key_ed hi₁ rfl hb2 h₁
  obtain ⟨a2, b2⟩ := step_key_ed hi₂ (lookupCommand_logic hL k).symm hb2 h₂
  rw [← hL] at a2 b2
  have hsee : Ed.see f { s₁.ed with input := r₁ } = Ed.see f { s₂.ed with input := r₂ } :=
    Ed.see_withInput he hr
  have c1 := Ed.call_see (L := E₁.logic) hf (lookupCommand E₁ k) { s₁.ed with input := r₁ }
  have c2 := Ed.call_see (L := E₁.logic) hf (lookupCommand E₁ k) { s₂.ed with input := r₂ }
  rw [hsee, c2] at c1
  have hres := (congrArg Prod.snd c1)
  have hed := (congrArg Prod.fst c1)
  dsimp only at hres hed
  by_cases hc : (Ed.call E₁.logic (lookupCommand E₁ k) { s₁.ed with input := r₁ }).2 = .cont
  · obtain ⟨o1, x1⟩ := a1 hc
    obtain ⟨o2, x2⟩ := a2 (by rw [hres]; exact hc)
    refine ⟨by rw [o1, o2], ?_⟩
    have y1 : p₁.1.ed = (Ed.call E₁.logic (lookupCommand E₁ k) { s₁.ed with input := r₁ }).1 := by
      rcases x1 with x1 | ⟨hfw, x1⟩
      · exact x1
      · rw [x1, hfw]
        exact Ed.fresh_of (hw hfw).1 rfl rfl
    have y2 : p₂.1.ed = (Ed.call E₁.logic (lookupCommand E₁ k) { s₂.ed with input := r₂ }).1 := by
      rcases x2 with x2 | ⟨hfw, x2⟩
      · exact x2
      · rw [x2, hfw]
        exact Ed.fresh_of (hw hfw).2 rfl rfl
    rw [y1, y2, hed]
  · obtain ⟨o1, x1⟩ := b1 hc
    obtain ⟨o2, x2⟩ := b2 (by rw [hres]; exact hc)
    have ht : (Ed.call E₁.logic (lookupCommand E₁ k) { s₁.ed with input := r₁ }).1.text =
        (Ed.call E₁.logic (lookupCommand E₁ k) { s₂.ed with input := r₂ }).1.text :=
      (by have := congrArg Ed.text hed.symm; exact this)
    refine ⟨by rw [o1, o2, hres, ht], ?_⟩
    rw [x1, x2]
    exact Ed.see_suffix hed.symm

theorem step_done {E : Env} {s : St} (hi : s.input = [] ∨ ∃ x rest, s.input = .err x :: rest)
    {p : St × Option RLRes} (h : step E s = .ok p) :
    p.2 = some ⟨[], .tty (match s.input with | .err x :: _ => x | _ => [])⟩ ∧
    p.1.ed = s.ed.withInput s.input.tail := by
  unfold step at h
  rcases hi with hi | ⟨x, rest, hi⟩
  · rw [hi] at h ⊢
    simp only [pure_ok] at h
    subst h
    refine ⟨rfl, ?_⟩
    have : s.ed = s.ed.withInput [] := by rw [← hi]; rfl
    rw [List.tail_nil, ← this]; rfl
  · rw [hi] at h ⊢
    simp only [pure_ok] at h
    subst h
    exact ⟨rfl, rfl⟩

/-- The keys still to come that run a command keep their commands. -/
theorem step_keys {E : Env} {s s' : St} (hb : BuiltinKeys E) (h : step E s = .ok (s', none)) {ev : Ev}
    (hm : ev ∈ s'.input) : ev ∈ s.input := by
  cases hi : s.input with
  | nil => rw [step, hi] at h; cases h
  | cons x rest =>
    cases x with
    | err e => rw [step, hi] at h; cases h
    | resize n =>
      have h1 := (step_resize_ed hi h).2
      have : s'.input = rest := by
        have := congrArg Ed.input h1
        rw [Ed.predict_input] at this
        exact this
      rw [this] at hm
      exact List.mem_cons_of_mem _ hm
    | key k =>
      obtain ⟨h1, h2⟩ := step_key_ed hi rfl (BuiltinKeys.builtin hb k) h
      have hc : (Ed.call E.logic (lookupCommand E k) { s.ed with input := rest }).2 = .cont := by
        by_cases hc : (Ed.call E.logic (lookupCommand E k) { s.ed with input := rest }).2 = .cont
        · exact hc
        · have := (h2 hc).1; cases this
      have hs := Ed.call_input E.logic (lookupCommand E k) { s.ed with input := rest }
      have : s'.input = (Ed.call E.logic (lookupCommand E k) { s.ed with input := rest }).1.input := by
        rcases (h1 hc).2 with h3 | ⟨_, h3⟩
        · exact congrArg Ed.input h3
        · have := congrArg Ed.input h3
          rw [Ed.predict_input] at this
          exact this
      rw [this] at hm
      exact List.mem_cons_of_mem _ (hs.subset hm)

/-- When no command used leaves a prediction behind, the prediction is always that of the line. -/
theorem step_fresh {E : Env} {s s' : St} (hb : BuiltinKeys E) (h : step E s = .ok (s', none))
    (hs : E.logic.predictOn = false ∨ ∀ k, Ev.key k ∈ s.input → stales (lookupCommand E k) = false)
    (hf : Ed.Fresh E.logic s.ed) : Ed.Fresh E.logic s'.ed := by
  rcases hs with hs | hs
  · exact Ed.fresh_off hs _
  cases hi : s.input with
  | nil => rw [step, hi] at h; cases h
  | cons x rest =>
    cases x with
    | err e => rw [step, hi] at h; cases h
    | resize n =>
      rw [(step_resize_ed hi h).2]
      exact Ed.predict_fresh _
    | key k =>
      obtain ⟨h1, h2⟩ := step_key_ed hi rfl (BuiltinKeys.builtin hb k) h
      have hc : (Ed.call E.logic (lookupCommand E k) { s.ed with input := rest }).2 = .cont := by
        by_cases hc : (Ed.call E.logic (lookupCommand E k) { s.ed with input := rest }).2 = .cont
        · exact hc
        · have := (h2 hc).1; cases this
      rcases (h1 hc).2 with h3 | ⟨_, h3⟩
      · rw [h3]
        exact Ed.call_fresh (hs k (by rw [hi]; simp)) (Ed.fresh_of hf rfl rfl) hc
      · rw [h3]
        exact Ed.predict_fresh _

theorem noResize_cons_eq {x y : Ev} {a c : List Ev} (hx : ∀ w, x ≠ .resize w)
    (hy : ∀ w, y ≠ .resize w) (h : noResize (x :: a) = noResize (y :: c)) :
    x = y ∧ noResize a = noResize c := by
  cases x with
  | resize w => exact absurd rfl (hx w)
  | key k => cases y with
    | resize w => exact absurd rfl (hy w)
    | key k' => simp [noResize] at h; exact ⟨by rw [h.1], h.2⟩
    | err k' => simp [noResize] at h
  | err k => cases y with
    | resize w => exact absurd rfl (hy w)
    | key k' => simp [noResize] at h
    | err k' => simp [noResize] at h; exact ⟨by rw [h.1], h.2⟩

/-- Two loops with the same keys and fresh predictions. -/
theorem loop_alike {E₁ E₂ : Env} (hL : E₁.logic = E₂.logic) (hb : BuiltinKeys E₁) (hb₂ : BuiltinKeys E₂)
    {n m : Nat} {s₁ s₂ : St} (he : Ed.see noResize s₁.ed = Ed.see noResize s₂.ed)
    (hs₁ : E₁.logic.predictOn = false ∨ ∀ k, Ev.key k ∈ s₁.input → stales (lookupCommand E₁ k) = false)
    (hs₂ : E₁.logic.predictOn = false ∨ ∀ k, Ev.key k ∈ s₂.input → stales (lookupCommand E₁ k) = false)
    (f₁ : Ed.Fresh E₁.logic s₁.ed) (f₂ : Ed.Fresh E₁.logic s₂.ed)
    {p₁ p₂ : St × RLRes} (h₁ : loop E₁ n s₁ = .ok p₁) (h₂ : loop E₂ m s₂ = .ok p₂) :
    Alike noResize p₁ p₂ := by
  induction hk : n + m using Nat.strongRecOn generalizing n m s₁ s₂ with
  | _ N ih =>
  obtain ⟨q₁, g₁, h₁'⟩ := loop_steps h₁
  obtain ⟨q₂, g₂, h₂'⟩ := loop_steps h₂
  have hin : noResize s₁.input = noResize s₂.input := congrArg Ed.input he
  by_cases hr₁ : ∃ w rest, s₁.input = .resize w :: rest
  · obtain ⟨w, rest, hi⟩ := hr₁
    obtain ⟨o, ed⟩ := step_resize_ed hi g₁
    have hfr : Ed.predict E₁.logic { s₁.ed with input := rest } = { s₁.ed with input := rest } :=
      Ed.fresh_of f₁ rfl rfl
    rw [hfr] at ed
    rcases h₁' with ⟨r, hr, _⟩ | ⟨n', hn, _, hl⟩
    · rw [o] at hr; cases hr
    · refine ih (n' + m) (by omega) (s₁ := q₁.1) ?_ ?_ hs₂ ?_ f₂ hl h₂ rfl
      · rw [ed]
        have : Ed.see noResize { s₁.ed with input := rest } = Ed.see noResize s₁.ed := by
          unfold Ed.see
          have : s₁.ed.input = .resize w :: rest := hi
          rw [this]; rfl
        rw [this, he]
      · rcases hs₁ with h | h
        · exact .inl h
        · refine .inr fun k hm => h k ?_
          have : q₁.1.input = rest := congrArg Ed.input ed
          rw [this] at hm
          rw [hi]; exact List.mem_cons_of_mem _ hm
      · rw [ed]; exact Ed.fresh_of f₁ rfl rfl
  by_cases hr₂ : ∃ w rest, s₂.input = .resize w :: rest
  · obtain ⟨w, rest, hi⟩ := hr₂
    obtain ⟨o, ed⟩ := step_resize_ed hi g₂
    rw [← hL] at ed
    have hfr : Ed.predict E₁.logic { s₂.ed with input := rest } = { s₂.ed with input := rest } :=
      Ed.fresh_of f₂ rfl rfl
    rw [hfr] at ed
    rcases h₂' with ⟨r, hr, _⟩ | ⟨n', hn, _, hl⟩
    · rw [o] at hr; cases hr
    · refine ih (n + n') (by omega) (s₂ := q₂.1) ?_ hs₁ ?_ f₁ ?_ h₁ hl rfl
      · rw [ed]
        have : Ed.see noResize { s₂.ed with input := rest } = Ed.see noResize s₂.ed := by
          unfold Ed.see
          have : s₂.ed.input = .resize w :: rest := hi
          rw [this]; rfl
        rw [this, he]
      · rcases hs₂ with h | h
        · exact .inl h
        · refine .inr fun k hm => h k ?_
          have : q₂.1.input = rest := congrArg Ed.input ed
          rw [this] at hm
          rw [hi]; exact List.mem_cons_of_mem _ hm
      · rw [ed]; exact Ed.fresh_of f₂ rfl rfl
  have ne₁ : ∀ x rest, s₁.input = x :: rest → ∀ w, x ≠ .resize w := by
    intro x rest h w hx; subst hx; exact hr₁ ⟨w, rest, h⟩
  have ne₂ : ∀ x rest, s₂.input = x :: rest → ∀ w, x ≠ .resize w := by
    intro x rest h w hx; subst hx; exact hr₂ ⟨w, rest, h⟩
  cases hi₁ : s₁.input with
  | nil =>
    cases hi₂ : s₂.input with
    | cons y c =>
      rw [hi₁, hi₂] at hin
      cases y with
      | resize w => exact absurd rfl (ne₂ _ _ hi₂ w)
      | key k => simp [noResize] at hin
      | err k => simp [noResize] at hin
    | nil =>
      obtain ⟨a1, b1⟩ := step_done (.inl hi₁) g₁
      obtain ⟨a2, b2⟩ := step_done (.inl hi₂) g₂
      rw [hi₁] at a1; rw [hi₂] at a2
      rcases h₁' with ⟨r, hr, rfl⟩ | ⟨_, _, hr, _⟩
      · rcases h₂' with ⟨r', hr', rfl⟩ | ⟨_, _, hr', _⟩
        · rw [a1] at hr; rw [a2] at hr'; cases hr; cases hr'
          refine ⟨rfl, ?_⟩
          dsimp only
          rw [b1, b2, hi₁, hi₂]
          exact Ed.see_withInput he rfl
        · rw [a2] at hr'; cases hr'
      · rw [a1] at hr; cases hr
  | cons x a =>
    cases hi₂ : s₂.input with
    | nil =>
      rw [hi₁, hi₂] at hin
      cases x with
      | resize w => exact absurd rfl (ne₁ _ _ hi₁ w)
      | key k => simp [noResize] at hin
      | err k => simp [noResize] at hin
    | cons y c =>
      rw [hi₁, hi₂] at hin
      obtain ⟨rfl, hac⟩ := noResize_cons_eq (ne₁ _ _ hi₁) (ne₂ _ _ hi₂) hin
      cases x with
      | resize w => exact absurd rfl (ne₁ _ _ hi₁ w)
      | err k =>
        obtain ⟨a1, b1⟩ := step_done (.inr ⟨_, _, hi₁⟩) g₁
        obtain ⟨a2, b2⟩ := step_done (.inr ⟨_, _, hi₂⟩) g₂
        rw [hi₁] at a1; rw [hi₂] at a2
        rcases h₁' with ⟨r, hr, rfl⟩ | ⟨_, _, hr, _⟩
        · rcases h₂' with ⟨r', hr', rfl⟩ | ⟨_, _, hr', _⟩
          · rw [a1] at hr; rw [a2] at hr'; cases hr; cases hr'
            refine ⟨rfl, ?_⟩
            dsimp only
            rw [b1, b2, hi₁, hi₂]
            exact Ed.see_withInput he hac
          · rw [a2] at hr'; cases hr'
        · rw [a1] at hr; cases hr
      | key k =>
        obtain ⟨a1, a2⟩ := step_alike blind_noResize hL hb hi₁ hi₂ hac he (fun _ => ⟨f₁, f₂⟩) g₁ g₂
        rcases h₁' with ⟨r, hr, rfl⟩ | ⟨n', hn, hr, hl₁⟩
        · rcases h₂' with ⟨r', hr', rfl⟩ | ⟨_, _, hr', _⟩
          · rw [hr, hr'] at a1; cases a1
            exact ⟨rfl, a2⟩
          · rw [hr, hr'] at a1; cases a1
        · rcases h₂' with ⟨r', hr', rfl⟩ | ⟨m', hm, hr', hl₂⟩
          · rw [hr, hr'] at a1; cases a1
          · have e1 : step E₁ s₁ = .ok (q₁.1, none) := by rw [g₁, ← hr]
            have e2 : step E₂ s₂ = .ok (q₂.1, none) := by rw [g₂, ← hr']
            refine ih (n' + m') (by omega) a2 ?_ ?_ (step_fresh hb e1 hs₁ f₁) ?_ hl₁ hl₂ rfl
            · exact hs₁.imp id fun h k hm => h k (step_keys hb e1 hm)
            · exact hs₂.imp id fun h k hm => h k (step_keys hb₂ e2 hm)
            · rw [hL]
              refine step_fresh hb₂ e2 ?_ (by rw [← hL]; exact f₂)
              rw [← hL]
              exact hs₂.imp id fun h k hm => by rw [← lookupCommand_logic hL]; exact h k hm

theorem BuiltinKeys.of_logic {E₁ E₂ : Env} (hL : E₁.logic = E₂.logic) (hb : BuiltinKeys E₁) :
    BuiltinKeys E₂ := fun k f => by rw [← lookupCommand_logic hL]; exact hb k f

theorem Alike.elim {f} {s₁ s₂ : St} {r₁ r₂ : RLRes} (h : Alike f (s₁, r₁) (s₂, r₂)) :
    r₁ = r₂ ∧ s₁.units = s₂.units ∧ s₁.cursor = s₂.cursor ∧ s₁.undoes = s₂.undoes := by
  refine ⟨h.1, ?_, congrArg Ed.cursor h.2, congrArg Ed.undoes h.2⟩
  have : s₁.line = s₂.line := congrArg Ed.line h.2
  rw [St.units_eq, St.units_eq, this]

/-- **C38** as far as it is true, 1: two sessions that differ in colours, prompts, line feeds,
output, terminal widths and resizes end with the same result, text, cursor and undo history, if
predictions are off or no key runs one of the five commands that keep an old prediction. -/
theorem C38_partial {E₁ E₂ : Env} {w₁ w₂ : World} (hL : E₁.logic = E₂.logic) (hb : BuiltinKeys E₁)
    (hcur : w₁.cursor = w₂.cursor) (hclip : w₁.clip = w₂.clip)
    (hin : noResize w₁.input = noResize w₂.input)
    (hs : E₁.logic.predictOn = false ∨
      ∀ k, Ev.key k ∈ w₁.input → stales (lookupCommand E₁ k) = false)
    {s₁ s₂ : St} {r₁ r₂ : RLRes}
    (h₁ : readLine E₁ w₁ = .ok (s₁, r₁)) (h₂ : readLine E₂ w₂ = .ok (s₂, r₂)) :
    r₁ = r₂ ∧ s₁.units = s₂.units ∧ s₁.cursor = s₂.cursor ∧ s₁.undoes = s₂.undoes := by
  unfold readLine at h₁ h₂
  obtain ⟨t₁, g₁, h₁⟩ := bind_ok.mp h₁
  obtain ⟨t₂, g₂, h₂⟩ := bind_ok.mp h₂
  have e₁ := (startSt_ed g₁).1
  have e₂ := (startSt_ed g₂).1
  rw [← hL] at e₂
  have i₁ : t₁.input = w₁.input := by
    have := congrArg Ed.input e₁
    unfold Ed.start at this
    simp only [Ed.predict_input] at this
    exact this
  have i₂ : t₂.input = w₂.input := by
    have := congrArg Ed.input e₂
    unfold Ed.start at this
    simp only [Ed.predict_input] at this
    exact this
  have mem : ∀ k (a : List Ev), Ev.key k ∈ a ↔ Ev.key k ∈ noResize a := by
    intro k a
    induction a with
    | nil => rfl
    | cons x a ih => cases x <;> simp [noResize, ih]
  refine (loop_alike hL hb (BuiltinKeys.of_logic hL hb) ?_ ?_ ?_ ?_ ?_ h₁ h₂).elim
  · rw [e₁, e₂]
    unfold Ed.start
    dsimp only
    rw [← Ed.predict_see, ← Ed.predict_see]
    unfold Ed.see Ed.withInput
    dsimp only
    rw [hin, hcur, hclip]
  · rw [i₁]; exact hs
  · rw [i₂]
    refine hs.imp id fun h k hm => h k ?_
    rw [mem, hin, ← mem]; exact hm
  · rw [e₁]; exact Ed.predict_fresh _
  · rw [e₂]; exact Ed.predict_fresh _

/-- Two loops with the same keys, no word motion, and resizes at the same places. -/
theorem loop_alike_words {E₁ E₂ : Env} (hL : E₁.logic = E₂.logic) (hb : BuiltinKeys E₁)
    {n m : Nat} {s₁ s₂ : St} (he : Ed.see noWidth s₁.ed = Ed.see noWidth s₂.ed)
    (hs : ∀ k, Ev.key k ∈ s₁.input → lookupCommand E₁ k ≠ .forwardWord)
    {p₁ p₂ : St × RLRes} (h₁ : loop E₁ n s₁ = .ok p₁) (h₂ : loop E₂ m s₂ = .ok p₂) :
    Alike noWidth p₁ p₂ := by
  induction n generalizing m s₁ s₂ with
  | zero => cases h₁
  | succ n ih =>
  obtain ⟨q₁, g₁, h₁'⟩ := loop_steps h₁
  obtain ⟨q₂, g₂, h₂'⟩ := loop_steps h₂
  have hin : noWidth s₁.input = noWidth s₂.input := congrArg Ed.input he
  have key : q₁.2 = q₂.2 ∧ Ed.see noWidth q₁.1.ed = Ed.see noWidth q₂.1.ed := by
    cases hi₁ : s₁.input with
    | nil =>
      cases hi₂ : s₂.input with
      | cons y c => rw [hi₁, hi₂] at hin; cases y <;> simp [noWidth] at hin
      | nil =>
        obtain ⟨a1, b1⟩ := step_done (.inl hi₁) g₁
        obtain ⟨a2, b2⟩ := step_done (.inl hi₂) g₂
        rw [hi₁] at a1; rw [hi₂] at a2
        rw [a1, a2, b1, b2, hi₁, hi₂]
        exact ⟨rfl, Ed.see_withInput he rfl⟩
    | cons x a =>
      cases hi₂ : s₂.input with
      | nil => rw [hi₁, hi₂] at hin; cases x <;> simp [noWidth] at hin
      | cons y c =>
        rw [hi₁, hi₂] at hin
        cases x with
        | resize w =>
          cases y with
          | resize w' =>
            simp only [noWidth, List.cons.injEq, true_and] at hin
            obtain ⟨o, ed⟩ := step_resize_ed hi₁ g₁
            obtain ⟨o', ed'⟩ := step_resize_ed hi₂ g₂
            rw [o, o', ed, ed', ← hL, ← Ed.predict_see, ← Ed.predict_see]
            exact ⟨rfl, congrArg _ (Ed.see_withInput he hin)⟩
          | key k => simp [noWidth] at hin
          | err k => simp [noWidth] at hin
        | err k =>
          cases y with
          | resize w' => simp [noWidth] at hin
          | key k => simp [noWidth] at hin
          | err k' =>
            simp only [noWidth, List.cons.injEq, Ev.err.injEq] at hin
            obtain ⟨a1, b1⟩ := step_done (.inr ⟨_, _, hi₁⟩) g₁
            obtain ⟨a2, b2⟩ := step_done (.inr ⟨_, _, hi₂⟩) g₂
            rw [hi₁] at a1; rw [hi₂] at a2
            rw [a1, a2, b1, b2, hi₁, hi₂, hin.1]
            exact ⟨rfl, Ed.see_withInput he hin.2⟩
        | key k =>
          cases y with
          | resize w' => simp [noWidth] at hin
          | err k => simp [noWidth] at hin
          | key k' =>
            simp only [noWidth, List.cons.injEq, Ev.key.injEq] at hin
            obtain ⟨rfl, hac⟩ := hin
            exact step_alike blind_noWidth hL hb hi₁ hi₂ hac he
              (fun h => absurd h (hs k (by rw [hi₁]; simp))) g₁ g₂
  obtain ⟨a1, a2⟩ := key
  rcases h₁' with ⟨r, hr, rfl⟩ | ⟨n', hn, hr, hl₁⟩
  · rcases h₂' with ⟨r', hr', rfl⟩ | ⟨_, _, hr', _⟩
    · rw [hr, hr'] at a1; cases a1
      exact ⟨rfl, a2⟩
    · rw [hr, hr'] at a1; cases a1
  · rcases h₂' with ⟨r', hr', rfl⟩ | ⟨m', hm, hr', hl₂⟩
    · rw [hr, hr'] at a1; cases a1
    · have e1 : step E₁ s₁ = .ok (q₁.1, none) := by rw [g₁, ← hr]
      cases hn
      exact ih a2 (fun k hm => hs k (step_keys hb e1 hm)) hl₁ hl₂

/-- **C38** as far as it is true, 2: two sessions that differ in colours, prompts, line feeds,
output and terminal widths end with the same result, text, cursor and undo history, if no key
is bound to `FORWARD_WORD`; resizes come at the same places in both, to any widths. -/
theorem C38_words_partial {E₁ E₂ : Env} {w₁ w₂ : World} (hL : E₁.logic = E₂.logic)
    (hb : BuiltinKeys E₁) (hcur : w₁.cursor = w₂.cursor) (hclip : w₁.clip = w₂.clip)
    (hin : noWidth w₁.input = noWidth w₂.input)
    (hs : ∀ k, Ev.key k ∈ w₁.input → lookupCommand E₁ k ≠ .forwardWord)
    {s₁ s₂ : St} {r₁ r₂ : RLRes}
    (h₁ : readLine E₁ w₁ = .ok (s₁, r₁)) (h₂ : readLine E₂ w₂ = .ok (s₂, r₂)) :
    r₁ = r₂ ∧ s₁.units = s₂.units ∧ s₁.cursor = s₂.cursor ∧ s₁.undoes = s₂.undoes := by
  unfold readLine at h₁ h₂
  obtain ⟨t₁, g₁, h₁⟩ := bind_ok.mp h₁
  obtain ⟨t₂, g₂, h₂⟩ := bind_ok.mp h₂
  have e₁ := (startSt_ed g₁).1
  have e₂ := (startSt_ed g₂).1
  rw [← hL] at e₂
  have i₁ : t₁.input = w₁.input := by
    have := congrArg Ed.input e₁
    unfold Ed.start at this
    simp only [Ed.predict_input] at this
    exact this
  refine (loop_alike_words hL hb ?_ ?_ h₁ h₂).elim
  · rw [e₁, e₂]
    unfold Ed.start
    dsimp only
    rw [← Ed.predict_see, ← Ed.predict_see]
    unfold Ed.see Ed.withInput
    dsimp only
    rw [hin, hcur, hclip]
  · rw [i₁]; exact hs

/-- The ends of two related sessions. -/
theorem Both.alike {vis : Seeing} {x y : M (St × RLRes)} (h : Both vis (Twin2 vis) x y) :
    EndAlike vis x y := by
  cases x <;> cases y
  · exact h.1.symm
  · exact h.elim
  · exact h.elim
  · rename_i a c
    obtain ⟨s, r⟩ := a
    obtain ⟨t, q⟩ := c
    obtain ⟨h, e⟩ : Twin vis s t ∧ q = r := h
    refine ⟨e, ?_, h.cursor, h.undoes, h.viewStart, h.clip, h.2.2⟩
    have f := congrArg (List.map Moji.write) h.1
    simpa [St.units, List.map_map, Function.comp_def] using f

theorem BuiltinKeys.unseeing {E : Env} (hb : BuiltinKeys E) (vis : Seeing) : E.Unseeing vis :=
  fun k f h => absurd h (hb k f)

/-- **C38** for the colours: whatever the `Coloring`s are, two sessions that differ in nothing else
end alike - the same panic, or the same text, error, cursor, undo history, view and clipboard - and
write the same but for the colour sequences.  (Commands bound by the caller must not look at colours
or output.) -/
theorem C38_coloring {E : Env} (hU : E.Unseeing uncoloured) (K : Coloring) (w : World) :
    EndAlike uncoloured (readLine E w) (readLine { E with coloring := K } w) := by
  refine (both_readLine (F := { E with coloring := K }) ?_ hU rfl rfl).alike
  exact {
    logic := rfl, prompt := rfl, err := rfl, sgr := fun _ => rfl
    width := fun p q hp hq n => by cases hp.symm.trans hq; rfl
    seePrompt := fun p q hp hq n => by cases hp.symm.trans hq; exact ⟨rfl, rfl⟩
    seeErr := fun e f he hf => by cases he.symm.trans hf; rfl
    seePredict := ⟨rfl, rfl⟩
    seeFeed := fun _ => rfl }

/-- **C38** for everything that is written: two sessions whose editors differ at most in colours,
prompts of the same width and line feeds, and which begin with any output, end alike. -/
theorem C38_looks {E F : Env} (hU : E.Unseeing nothing) (hE : EquallyWide E F) {w v : World}
    (hv : v = { w with out := v.out }) : EndAlike nothing (readLine E w) (readLine F v) := by
  have hn : ∀ l : List Tok, l.filterMap nothing = [] := by
    intro l
    induction l with
    | nil => rfl
    | cons x l ih => exact ih
  refine (both_readLine (vis := nothing) ?_ hU hv (by rw [hn, hn])).alike
  exact {
    logic := hE.logic, prompt := hE.prompt, err := hE.err, sgr := fun _ => rfl
    width := hE.width
    seePrompt := fun _ _ _ _ _ => ⟨rfl, rfl⟩
    seeErr := fun _ _ _ _ => rfl
    seePredict := ⟨rfl, rfl⟩
    seeFeed := fun _ => rfl }

namespace Example

/-- Two entries in the history, predictions on. -/
def guess : Env :=
  { env full with history := [b "ab cccccccccc1", b "ba cccccccccc2"]
                  predictColor := (b "<", b ">") }

/-- Type `ab cccccccccc`, exchange the first two letters, go to the end by words, accept the
prediction. -/
def swapAndGuess : List Ev :=
  keys ["a", "b", " ", "c", "c", "c", "c", "c", "c", "c", "c", "c", "c", "\x01", "\x06", "\x14",
    "\x1Bf", "\x1Bf", "\x06", "\r"]

/-- The same with a resize (to the same width) before the prediction is accepted. -/
def swapResizeGuess : List Ev :=
  keys ["a", "b", " ", "c", "\x01", "\x06", "\x14", "\x05"] ++ [.resize 80] ++ keys ["\x06", "\r"]

def swapGuess : List Ev :=
  keys ["a", "b", " ", "c", "\x01", "\x06", "\x14", "\x05"] ++ keys ["\x06", "\r"]

/-- Another look: other colours for the prediction, a prompt, another line feed. -/
def guessColoured : Env :=
  { guess with predictColor := (b "{", b "}"), prompt := some (fun _ => b "$ "),
               lineFeed := some (fun _ => b "!") }

/-- A colouring with a state: letters are painted alternately. -/
def stripes : Coloring :=
  { σ := Bool, init := true, defaultColor := 7#64, next := fun a _ => (!a, if a then 1#64 else 2#64) }

theorem guess_builtin : BuiltinKeys guess := defaultKeys_builtin full

/-- Not vacuous: a session with text, motion and an accepted prediction, in 80 and in 12
columns, with and without resizes. -/
example : outcome (readLine guess
      { input := keys ["a", "b", "\x01", "\x1Bf"] ++ [.resize 30] ++ keys ["\x06", "\r"] }) =
      .inr (b "ab cccccccccc1", .nil) ∧
    outcome (readLine guessColoured
      { termWidth := 30, input := keys ["a", "b", "\x01", "\x1Bf", "\x06", "\r"] }) =
      .inr (b "ab cccccccccc1", .nil) := by
  decide +kernel

end Example

theorem outcome_ok {E : Env} {w : World} {t : Bytes} {e : RLErr}
    (h : Example.outcome (readLine E w) = .inr (t, e)) : ∃ s, readLine E w = .ok (s, ⟨t, e⟩) := by
  cases hr : readLine E w with
  | error p => rw [hr] at h; cases h
  | ok p =>
    obtain ⟨s, r⟩ := p
    rw [hr] at h
    refine ⟨s, ?_⟩
    cases r
    cases h
    rfl

/-- The width of the terminal can influence the text: `FORWARD_WORD` asks for a new prediction
only if it scrolls, and an exchange of letters before left an old one. -/
theorem C38_refuted_width : ∃ (E : Env) (w₁ w₂ : World) (p₁ p₂ : St × RLRes), BuiltinKeys E ∧
    w₂ = { w₁ with termWidth := w₂.termWidth } ∧
    readLine E w₁ = .ok p₁ ∧ readLine E w₂ = .ok p₂ ∧
    p₁.2 = ⟨b "ba cccccccccc1", .nil⟩ ∧ p₂.2 = ⟨b "ba cccccccccc2", .nil⟩ := by
  have h := outcome_ok (E := Example.guess) (w := { input := Example.swapAndGuess })
    (t := b "ba cccccccccc1") (e := .nil) (by decide +kernel)
  have h' := outcome_ok (E := Example.guess) (w := { termWidth := 12, input := Example.swapAndGuess })
    (t := b "ba cccccccccc2") (e := .nil) (by decide +kernel)
  obtain ⟨s₁, h₁⟩ := h
  obtain ⟨s₂, h₂⟩ := h'
  exact ⟨_, _, _, _, _, Example.guess_builtin, rfl, h₁, h₂, rfl, rfl⟩

/-- A resize can influence the text: it replaces an old prediction by a new one. -/
theorem C38_refuted_resize : ∃ (E : Env) (w₁ w₂ : World) (p₁ p₂ : St × RLRes), BuiltinKeys E ∧
    w₂ = { w₁ with input := w₂.input } ∧ noResize w₁.input = noResize w₂.input ∧
    readLine E w₁ = .ok p₁ ∧ readLine E w₂ = .ok p₂ ∧
    p₁.2 = ⟨b "ba cccccccccc1", .nil⟩ ∧ p₂.2 = ⟨b "ba cccccccccc2", .nil⟩ := by
  have h := outcome_ok (E := Example.guess) (w := { input := Example.swapGuess })
    (t := b "ba cccccccccc1") (e := .nil) (by decide +kernel)
  have h' := outcome_ok (E := Example.guess) (w := { input := Example.swapResizeGuess })
    (t := b "ba cccccccccc2") (e := .nil) (by decide +kernel)
  obtain ⟨s₁, h₁⟩ := h
  obtain ⟨s₂, h₂⟩ := h'
  exact ⟨_, { input := Example.swapGuess }, { input := Example.swapResizeGuess }, _, _,
    Example.guess_builtin, rfl, rfl, h₁, h₂, rfl, rfl⟩

/-- The width of the prompt can influence the text, since it changes the width of the view. -/
theorem C38_refuted_prompt : ∃ (E : Env) (p : Nat → Bytes) (w : World) (p₁ p₂ : St × RLRes),
    BuiltinKeys E ∧ readLine E w = .ok p₁ ∧ readLine { E with prompt := some p } w = .ok p₂ ∧
    p₁.2 = ⟨b "ba cccccccccc1", .nil⟩ ∧ p₂.2 = ⟨b "ba cccccccccc2", .nil⟩ := by
  have h := outcome_ok (E := Example.guess) (w := { input := Example.swapAndGuess })
    (t := b "ba cccccccccc1") (e := .nil) (by decide +kernel)
  have h' := outcome_ok
    (E := { Example.guess with prompt := some (fun _ => List.replicate 70 0x2D) })
    (w := { input := Example.swapAndGuess })
    (t := b "ba cccccccccc2") (e := .nil) (by decide +kernel)
  obtain ⟨s₁, h₁⟩ := h
  obtain ⟨s₂, h₂⟩ := h'
  exact ⟨_, _, _, _, _, Example.guess_builtin, h₁, h₂, rfl, rfl⟩

namespace Example

/-- Not vacuous: two sessions with different colours, which end with the same text and whose output
differs. -/
example :
    outcome (readLine guess { input := swapAndGuess }) = .inr (b "ba cccccccccc1", .nil) ∧
    outcome (readLine { guess with coloring := stripes } { input := swapAndGuess }) =
      .inr (b "ba cccccccccc1", .nil) ∧
    (match readLine guess { input := keys ["a"] },
        readLine { guess with coloring := stripes } { input := keys ["a"] } with
      | .ok (s, _), .ok (t, _) => decide (t.out ≠ s.out)
      | _, _ => false) = true := by
  decide +kernel

/-- `guessColoured` is an editor that looks different. -/
example : EquallyWide { guess with prompt := some (fun _ => b "> ") } guessColoured where
  logic := by
    have h : decide ((b "{", b "}").1 ≠ []) = decide ((b "<", b ">").1 ≠ []) := by decide +kernel
    exact congrArg (fun o => { guess.logic with predictOn := o }) h
  prompt := rfl
  width := by
    intro p q hp hq n
    cases hp
    cases hq
    show (mojiWidthAndCount guess.cfg (cutEscapeSequenceAndOldLine (b "$ "))).1 =
      (mojiWidthAndCount guess.cfg (cutEscapeSequenceAndOldLine (b "> "))).1
    decide +kernel
  err := rfl

end Example

end Readline
