import Verif.Spec.Notebook
import Verif.Props.C78
import Verif.Props.C62
/-!
# A program that reads lines and the program of the textbook
-/
namespace Readline
open Spec

variable {E : Env} {w : World} {D : Desk} {t : List Char} {n : Nat} {clip : Option (List Char)} {ks : List (List Char)}

theorem plays_turns (D : Desk) (m : Nat) (p : Page) (ks : List (List Char)) : (plays D m p ks).1 = turns D m p ks := by
  induction m generalizing p ks with
  | zero => rfl
  | succ m ih =>
    cases ks with
    | nil => rfl
    | cons k ks =>
      rw [plays, turns]
      cases turn D p k ks with
      | inl x => exact ih _ _
      | inr e => rfl

theorem oneLine_textbook : (oneLine D t n clip ks).1 = textbook D t n clip ks := plays_turns _ _ _ _

theorem Spec.Turned.plays {p q : Page} {r : List (List Char)} (h : Turned D p ks q r) {m : Nat} (hm : ks.length ≤ m) :
    ∃ m', r.length ≤ m' ∧ plays D m p ks = plays D m' q r := by
  induction h with
  | start => exact ⟨m, hm, rfl⟩
  | @turn q q' k r r' h1 h2 ih =>
    obtain ⟨m', hm', e⟩ := ih
    rw [List.length_cons] at hm'
    obtain ⟨m', rfl⟩ : ∃ x, m' = x + 1 := ⟨m' - 1, by omega⟩
    refine ⟨m', by have := (turn_suffix h2).length_le; omega, ?_⟩
    rw [e, Spec.plays, h2]

theorem Spec.Turned.closes {p q : Page} {k : List Char} {r : List (List Char)} (h : Turned D p ks q (k :: r)) {a : Ending}
    (ha : Spec.turn D q k r = .inr a) {m : Nat} (hm : ks.length ≤ m) : Spec.plays D m p ks = (a, q, r) := by
  obtain ⟨m', hm', e⟩ := h.plays hm
  rw [List.length_cons] at hm'
  obtain ⟨m', rfl⟩ : ∃ x, m' = x + 1 := ⟨m' - 1, by omega⟩
  rw [e, Spec.plays, ha]

/-- A turn that enters a line is one of an Enter key. -/
theorem turn_enters {p : Page} {k : List Char} {l : List Char} (h : turn D p k ks = .inr (.entered l)) :
    D.verb k = .enter ∧ l = p.text := by
  unfold turn at h
  split at h
  case h_1 hv => cases h; exact ⟨hv, rfl⟩
  case h_3 => split at h <;> cases h
  case h_17 => split at h <;> cases h
  case h_21 => cases hu : p.undo <;> rw [hu] at h <;> cases h
  case h_24 => split at h <;> cases h
  all_goals cases h

theorem plays_shorter {m : Nat} {p q : Page} {a : Ending} {ks rest : List (List Char)} (h : plays D m p ks = (a, q, rest))
    (ha : a ≠ .starved := by simp) : rest.length < ks.length := by
  induction m generalizing p ks with
  | zero => cases h; exact absurd rfl ha
  | succ m ih =>
    cases ks with
    | nil => cases h; exact absurd rfl ha
    | cons k ks =>
      rw [plays] at h
      rw [List.length_cons]
      cases htn : turn D p k ks with
      | inl x =>
        obtain ⟨p', ks'⟩ := x
        rw [htn] at h
        have h1 := ih h
        have h2 := (turn_suffix htn).length_le
        omega
      | inr e => rw [htn] at h; cases h; omega

/-- **A line that is entered**: what the next call finds. -/
theorem line_entered (h : Setting E w D t n clip ks) {s : St} {r : RLRes} (hrl : readLine E w = .ok (s, r)) (hn : r.err = .nil) :
    ∃ l p rest, oneLine D t n clip ks = (.entered l, p, rest) ∧ r.text = utf8 l ∧ s.cursor = (p.left.length : Int) ∧
      s.clip = p.clip.map utf8 ∧ keysIn s.input = rest.map utf8 ∧ s.input.length < w.input.length ∧ rest <:+ ks ∧ rest.length < ks.length := by
  obtain ⟨-, x, -, -, -, hsub⟩ := readLine_takes h.builtin hrl hn
  have hres := textbook_result h hrl
  obtain ⟨s0, hr, hst⟩ := readLine_reachable hrl
  obtain ⟨p, rs, ht, hd, hrd⟩ := reachable_drawn h hr
  have hlen : (x :: s.input).length ≤ w.input.length := hsub.length_le
  rw [List.length_cons] at hlen
  cases hi : s0.input with
  | nil => rw [step, hi] at hst; cases hst; cases hn
  | cons ev rest =>
    cases ev with
    | err x => exact absurd (show Ev.err x ∈ s0.input by rw [hi]; simp) (hrd.quiet x)
    | resize v => have := (step_resize_ed hi hst).1; cases this
    | key kb =>
      obtain ⟨k, r', rfl, hkm, rfl, c1, c2⟩ := drawn_turn h hr ht hd hrd hi
      obtain ⟨h1, h2⟩ := step_key_ed hi rfl (BuiltinKeys.builtin h.builtin _) hst
      cases htn : turn D p k r' with
      | inl x =>
        obtain ⟨q, ks'⟩ := x
        have := (h1 (c1 q ks' htn).1).1
        cases this
      | inr a =>
        have hcl := ht.closes htn (Nat.le_refl _)
        have ha : (a : Ending) = textbook D t n clip ks := (ht.ends htn (Nat.le_refl _)).symm
        rw [← ha] at hres
        cases a with
        | entered l =>
          cases hres
          obtain ⟨hv, rfl⟩ := turn_enters htn
          have hm := h.means k hkm
          rw [hv] at hm
          have hc : lookupCommand E (utf8 k) = .acceptLine := by
            generalize lookupCommand E (utf8 k) = c at hm
            cases hm
            rfl
          rw [hc] at h2
          have he : s.ed = { s0.ed with input := rest, suffix := none } := (h2 (by simp [Ed.call])).2
          have hks := hrd.keys
          rw [hi] at hks
          have hks : utf8 k :: keysIn rest = utf8 k :: r'.map utf8 := hks
          have hrest : s.input = rest := congrArg Ed.input he
          refine ⟨_, p, r', hcl, rfl, ?_, ?_, ?_, by omega, ?_, ?_⟩
          · exact (congrArg Ed.cursor he).trans hd.cursor
          · exact (congrArg Ed.clip he).trans hd.clip
          · rw [hrest]; exact (List.cons.inj hks).2
          · exact (List.suffix_cons _ _).trans ht.suffix
          · have := ht.suffix.length_le
            rw [List.length_cons] at this
            omega
        | interrupted => cases hres; cases hn
        | closed => cases hres; cases hn
        | starved => cases hres; cases hn
        | crashed => cases hres

/-- What is read next is set up in the same way. -/
theorem desk_next {keep : List Char → Bool} (h : PlainDesk E w D t n clip ks) {s : St} {r : RLRes} (hrl : readLine E w = .ok (s, r))
    (hn : r.err = .nil) {l : List Char} {p : Page} {rest : List (List Char)} (hl : r.text = utf8 l) (hcur : s.cursor = (p.left.length : Int))
    (hclip : s.clip = p.clip.map utf8) (hkeys : keysIn s.input = rest.map utf8) (hsuf : rest <:+ ks) :
    PlainDesk { E with history := if keep l then E.history ++ [r.text] else E.history } s.world
      { D with history := if keep l then D.history ++ [l] else D.history } t p.left.length p.clip rest := by
  have hb := h.setting.builtin
  obtain ⟨hot, hfrom⟩ := result_from hb h.modest.sources hrl
  obtain ⟨-, x, -, -, -, hsub⟩ := readLine_takes hb hrl hn
  have hin : s.input.Sublist w.input := (List.sublist_cons_self _ _).trans hsub
  have hwid : s.termWidth = w.termWidth ∨ .resize s.termWidth ∈ w.input := by
    obtain ⟨t', htr', hst⟩ := readLine_reachable hrl
    have hbb := fun k => BuiltinKeys.builtin hb k
    exact ((reachable_says hbb true htr').trans ((step_says hbb t').ok hst)).width
  have hplain : ∀ {u : List Char}, Over (Plain E.cfg) (utf8 u) → ∀ c ∈ u, Plain E.cfg c.toNat := by
    intro u hu
    unfold Over at hu
    rw [runesOf_utf8] at hu
    simpa using hu
  refine { h with
    history := ?_, cursor := hcur, clipboard := hclip, keys := hkeys, noErr := fun x hx => h.noErr x (hin.subset hx),
    full := fun k hk => h.full k (hsuf.subset hk), means := fun k hk => h.means k (hsuf.subset hk), plain := ?_, plainTyped := fun k hk => h.plainTyped k (hsuf.subset hk),
    plainLiteral := fun ⟨k, hk, hv⟩ u hu => h.plainLiteral ⟨k, hsuf.subset hk, hv⟩ u (hsuf.subset hu), fresh := ?_, room := ?_,
    top := h.top.imp id fun hx => (h.prompt _).trans hx, prompt := fun m => (h.prompt m).trans (h.prompt _).symm,
    resized := fun v hv => (h.prompt s.promptN).symm ▸ h.resized v (hin.subset hv) }
  · dsimp only
    split
    · rw [List.map_append, h.history, hl]; rfl
    · exact h.history
  · rintro u (hu | hu | hu)
    · exact h.plain u (.inl hu)
    · dsimp only at hu
      split at hu
      · rcases List.mem_append.mp hu with hu | hu
        · exact h.plain u (.inr (.inl hu))
        · rw [List.mem_singleton] at hu
          subst hu
          exact hplain (hl ▸ hot)
      · exact h.plain u (.inr (.inl hu))
    · exact hplain (hfrom.clip (utf8 u) (by show s.clip = _; rw [hclip, hu]; rfl))
  · rcases h.fresh with h1 | h1 | h1
    · exact .inl h1
    · exact .inr (.inl fun k hk => h1 k (hsuf.subset hk))
    · exact .inr (.inr fun k hk => h1 k (hsuf.subset hk))
  · show promptWidth E s.promptN + 5 < s.termWidth
    rw [h.prompt]
    rcases hwid with hx | hx
    · rw [hx]; exact h.room
    · exact h.resized _ hx

/-- **The loop** and the program of the textbook. -/
theorem readLines_notebook {keep : Bytes → Bool} {keepC : List Char → Bool} (hkeep : ∀ l, keep (utf8 l) = keepC l) (m : Nat) :
    ∀ {w : World} {c : Container} {hist : List (List Char)} {n : Nat} {clip : Option (List Char)} {ks : List (List Char)} {f : Nat},
      PlainDesk { E with history := c.buffer } w { D with history := hist } t n clip ks → w.input.length < m → ks.length < f →
      (∃ x, readLines E keep m c w = .ok x ∧ x.1.buffer = (notebook D keepC t f hist n clip ks).1.map utf8 ∧
          ∃ u, (notebook D keepC t f hist n clip ks).2.answer = some ⟨u, x.2.1⟩) ∨
        ((∃ x, readLines E keep m c w = .error x) ∧ (notebook D keepC t f hist n clip ks).2 = .crashed) := by
  induction m with
  | zero => intro w c hist n clip ks f _ hw; omega
  | succ m ih =>
    intro w c hist n clip ks f h hw hf
    obtain ⟨f, rfl⟩ : ∃ x, f = x + 1 := ⟨f - 1, by omega⟩
    rw [notebook, readLines]
    rcases C78_bound_partial h with ⟨s, r, h1, h2⟩ | ⟨⟨x, h1⟩, h2⟩
    · rw [h1]
      by_cases hn : r.err = .nil
      · obtain ⟨l, p, rest, g1, g2, g3, g4, g5, g6, g7, g8⟩ := line_entered h.setting h1 hn
        have hnext := desk_next (keep := keepC) h h1 hn g2 g3 g4 g5 g7
        rw [g1]
        have hb : (if keep r.text then c.add r.text else c).buffer = if keepC l then c.buffer ++ [r.text] else c.buffer := by
          rw [g2, hkeep]
          split <;> rfl
        have := ih (c := if keep r.text then c.add r.text else c) (w := s.world) (f := f) (by rw [hb]; exact hnext)
          (by show s.input.length < m; omega) (by omega)
        show (∃ x, (match r.err with
          | .nil => readLines E keep m (if keep r.text then c.add r.text else c) s.world
          | err => pure (c, err, s.world)) = .ok x ∧ _) ∨ ((∃ x, (match r.err with
          | .nil => readLines E keep m (if keep r.text then c.add r.text else c) s.world
          | err => pure (c, err, s.world)) = .error x) ∧ _)
        rw [hn]
        exact this
      · left
        rw [← oneLine_textbook] at h2
        generalize oneLine { D with history := hist } t n clip ks = o at h2
        obtain ⟨a, p, rest⟩ := o
        have hh : c.buffer = hist.map utf8 := h.history
        show ∃ x, (match r.err with
          | .nil => readLines E keep m (if keep r.text then c.add r.text else c) s.world
          | err => pure (c, err, s.world)) = .ok x ∧ _
        cases a with
        | entered l => cases h2; exact absurd rfl hn
        | interrupted => cases h2; exact ⟨_, rfl, hh, _, rfl⟩
        | closed => cases h2; exact ⟨_, rfl, hh, _, rfl⟩
        | starved => cases h2; exact ⟨_, rfl, hh, _, rfl⟩
        | crashed => cases h2
    · right
      rw [h1]
      refine ⟨⟨x, rfl⟩, ?_⟩
      rw [← oneLine_textbook] at h2
      generalize oneLine { D with history := hist } t n clip ks = o at h2
      obtain ⟨a, p, rest⟩ := o
      have h2 : a = .crashed := h2
      subst h2
      rfl

end Readline
