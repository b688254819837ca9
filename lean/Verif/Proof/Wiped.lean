import Verif.Spec.Wiped
import Verif.Proof.Scroll
/-!
# What is written after the screen was cleared
-/
namespace Readline
open Spec

variable {E : Env} {w : World} {s s' : St} {adv : Rune → Int} {P : Nat → Prop}

/-! ## The height of the terminal -/

theorem newline_height (v : Vt) : v.newline.height = v.height := by
  unfold Vt.newline; split <;> rfl

theorem control_height (v : Vt) (ps : List Rune) (f : Rune) : (v.control ps f).height = v.height := by
  have ite : ∀ {p : Prop} [Decidable p] {a b : Vt}, a.height = v.height → b.height = v.height →
      (if p then a else b).height = v.height := by
    intro p _ a b ha hb
    split
    · exact ha
    · exact hb
  unfold Vt.control
  refine ite rfl (ite rfl (ite rfl (ite rfl (ite rfl (ite rfl (ite ?_ (ite ?_ (ite rfl (ite rfl (ite rfl (ite rfl rfl)))))))))))
  · split <;> rfl
  · split <;> rfl

theorem receive_height (v : Vt) (r : Rune) : (v.receive adv r).height = v.height := by
  unfold Vt.receive
  split
  · repeat' split
    all_goals first | rfl | exact newline_height v | skip
    unfold Vt.print
    split
    · rfl
    · exact newline_height v
  · repeat' split
    all_goals rfl
  · split
    · exact control_height v _ _
    · rfl

theorem feed_height (v : Vt) (rs : List Rune) : (v.feed adv rs).height = v.height := by
  induction rs generalizing v with
  | nil => rfl
  | cons r rs ih => rw [feed_cons, ih, receive_height]

/-! ## Clearing the screen -/

/-- The bytes that clear the screen. -/
def Spec.wipeAll : Bytes := [0x1B, 0x5B, 0x31, 0x3B, 0x31, 0x48, 0x1B, 0x5B, 0x32, 0x4A]

theorem wipe_run (v : Vt) (hm : v.mode = .ground) (hw : 0 < v.width) (hh : 0 < v.height) :
    (v.run adv wipeAll).mode = .ground ∧ (v.run adv wipeAll).width = v.width ∧ (v.run adv wipeAll).height = v.height ∧ (v.run adv wipeAll).row = 0 ∧
      (v.run adv wipeAll).col = 0 ∧ ∀ y x, (v.run adv wipeAll).cells y x = none := by
  unfold wipeAll
  rw [run_ascii _ (by decide)]
  have e : ([0x1B, 0x5B, 0x31, 0x3B, 0x31, 0x48, 0x1B, 0x5B, 0x32, 0x4A] : Bytes).map UInt8.toNat =
      ([0x1B, 0x5B] ++ [0x31, 0x3B, 0x31] ++ [0x48]) ++ ([0x1B, 0x5B] ++ [0x32] ++ [0x4A]) := rfl
  rw [e, feed_append, feed_csi hm (by decide) (by decide) (by decide),
    feed_csi (v := Vt.control _ _ _) rfl (by decide) (by decide) (by decide)]
  refine ⟨rfl, rfl, rfl, ?_, ?_, fun y x => rfl⟩
  · show max 0 (min (max 1 (1 : Int) - 1) (v.height - 1)) = 0
    omega
  · show max 0 (min (max 1 (1 : Int) - 1) (v.width - 1)) = 0
    omega

/-! ## What is written -/

/-- A step that does not redraw the screen stays in the row. -/
theorem step_rowed (hb : BuiltinKeys E) (ho : Ordinary P E w) (hx : Plainly P E w) {c : Int} (hpr : ∀ n, promptWidth E n = c) (h : Reachable E w s)
    {o : List Tok} (hc : Clean P E o (Rowed P E c) s) (hst : step E s = .ok (s', none))
    (hne : ∀ k rest, s.input = .key k :: rest → lookupCommand E k ≠ .clearScreen ∧ lookupCommand E k ≠ .repaintOnNewline) :
    Clean P E o (Rowed P E c) s' := by
  have hS := ho.sources.src
  have hQ := rowed_inks P E c
  have hw2 : promptWidth E w.promptN = c := hpr _
  have ht : Easy P E c s := hw2 ▸ ordinary_easy hb ho.modest h
  have hin := reachable_input hb h
  have hn : Neat P E c o (Rowed P E c) s := ⟨ht, hc⟩
  unfold step at hst
  cases hi : s.input with
  | nil => rw [hi] at hst; cases hst
  | cons ev rest =>
    rw [hi] at hst
    cases ev with
    | err x => cases hst
    | resize n =>
      dsimp only at hst
      obtain ⟨s1, h1, hst⟩ := bind_ok.mp hst
      cases pure_ok.mp hst
      unfold onResize at h1
      have hw := ho.resized n (hin.subset (by rw [hi]; simp))
      rw [hw2] at hw
      refine (lastLine_rowed hS ho.plain hpr ?_).ok h1
      obtain ⟨⟨t, h3, h4⟩, h5⟩ := hn
      exact ⟨⟨⟨t.built, t.line, t.suffix, t.undoes, t.pending, t.whole, t.modHist, t.clip⟩, h3, hw⟩, h5.of⟩
    | key k =>
      dsimp only at hst
      unfold execCmd at hst
      obtain ⟨⟨s1, rc⟩, h1, hst⟩ := bind_ok.mp hst
      have hk : .key k ∈ w.input := hin.subset (by rw [hi]; simp)
      have hsub : ∀ ev, ev ∈ rest → ev ∈ w.input := fun ev hev => hin.subset (by rw [hi]; exact List.mem_cons_of_mem _ hev)
      have ha := ho.sources.allowed (e := (({ s.emit .await with input := rest } : St).emit .cursorOff).ed) hk hsub
      have hn1 : Neat P E c o (Rowed P E c) ({ s.emit .await with input := rest } : St) := hn.emit hQ.await
      have h2 := (call_clean (c := c) hS ho.plain hpr hQ (BuiltinKeys.builtin hb k) ha
        (fun e => ⟨(hx.search k hk e).1, fun q hq => (hx.search k hk e).2 q (hsub _ hq)⟩)
        (fun K e => hx.box k K hk e) (fun hd => by
          rcases hd with hd | hd
          · exact absurd hd (hne k rest hi).1
          · exact absurd hd (hne k rest hi).2) (hn1.emit hQ.off)).ok h1
      cases rc
      · cases pure_ok.mp hst
        exact h2.emit hQ.on
      · obtain ⟨p, _, hst⟩ := bind_ok.mp hst; cases pure_ok.mp hst
      · obtain ⟨p, _, hst⟩ := bind_ok.mp hst; cases pure_ok.mp hst
      · obtain ⟨p, _, hst⟩ := bind_ok.mp hst; cases pure_ok.mp hst

/-- A step that clears the screen: it is cleared, and then the prompt is written, and then what stays in its row. -/
theorem step_wipes (hb : BuiltinKeys E) (ho : Ordinary P E w) (hx : Plainly P E w) {c : Int} (hpr : ∀ n, promptWidth E n = c) (h : Reachable E w s)
    {k : Bytes} {rest : List Ev} (hi : s.input = .key k :: rest) (hk : lookupCommand E k = .clearScreen) (hst : step E s = .ok (s', none)) :
    ∃ t n, Clean P E (w.out ++ (t ++ [.lit wipeAll, .flush, .lit (signBytes E n)])) (Rowed P E c) s' := by
  have hS := ho.sources.src
  have hQ := rowed_inks P E c
  have hw2 : promptWidth E w.promptN = c := hpr _
  have ht : Easy P E c s := hw2 ▸ ordinary_easy hb ho.modest h
  have hcl := ordinary_clean hb ho hx (everything P E _) h
  obtain ⟨t, e, -⟩ := hcl.out
  have hn : Neat P E c s.out (fun _ => True) s := ⟨ht, clean_here hcl.hint⟩
  have hE := everything P E c
  unfold step at hst
  rw [hi] at hst
  dsimp only at hst
  unfold execCmd at hst
  obtain ⟨⟨s1, rc⟩, h1, hst⟩ := bind_ok.mp hst
  rw [hk] at h1
  obtain ⟨s2, h3, h4⟩ := bind_ok.mp h1
  cases pure_ok.mp h4
  cases pure_ok.mp hst
  have hn1 : Neat P E c s.out (fun _ => True) ({ s.emit .await with input := rest } : St) := hn.emit trivial
  have hn2 : Neat P E c s.out (fun _ => True) ((({ s.emit .await with input := rest } : St).emit .cursorOff).emit (.lit wipeAll)) :=
    (hn1.emit (s' := ({ s.emit .await with input := rest } : St).emit .cursorOff) trivial).emit trivial
  have hn3 := hn2.emit (s' := ((({ s.emit .await with input := rest } : St).emit .cursorOff).emit (.lit wipeAll)).emit .flush) trivial
  obtain ⟨b, ⟨-, n, rfl⟩, e1, -⟩ := callPromptWriter_text E (((({ s.emit .await with input := rest } : St).emit .cursorOff).emit (.lit wipeAll)).emit .flush)
  have hn4 := prompt_neat hS ho.plain hpr hE.toInks hE hn3
  refine ⟨t ++ [.await, .cursorOff], n, ?_⟩
  have h5 : Clean P E (w.out ++ (t ++ [.await, .cursorOff] ++ [.lit wipeAll, .flush, .lit (signBytes E n)])) (Rowed P E c) s1 := by
    unfold repaintAll at h3
    dsimp only at h3
    refine (repaint_clean hS ho.plain hpr hQ ⟨hn4.easy, ⟨⟨[], ?_, by simp⟩, hn4.clean.hint⟩⟩).ok h3
    rw [List.append_nil]
    refine e1.trans ?_
    show s.out ++ [.await] ++ [.cursorOff] ++ [.lit wipeAll] ++ [.flush] ++ [.lit (signBytes E n)] = _
    rw [e]
    simp
  exact h5.emit hQ.on

/-- A step that redraws on a new row: a line feed, the prompt, and then what stays in its row. -/
theorem step_feeds (hb : BuiltinKeys E) (ho : Ordinary P E w) (hx : Plainly P E w) {c : Int} (hpr : ∀ n, promptWidth E n = c) (h : Reachable E w s)
    {k : Bytes} {rest : List Ev} (hi : s.input = .key k :: rest) (hk : lookupCommand E k = .repaintOnNewline) (hst : step E s = .ok (s', none)) :
    ∃ n, Clean P E (s.out ++ [.await, .cursorOff, .lit [0x0A], .flush, .lit (signBytes E n)]) (Rowed P E c) s' := by
  have hS := ho.sources.src
  have hQ := rowed_inks P E c
  have hw2 : promptWidth E w.promptN = c := hpr _
  have ht : Easy P E c s := hw2 ▸ ordinary_easy hb ho.modest h
  have hcl := ordinary_clean hb ho hx (everything P E _) h
  have hn : Neat P E c s.out (fun _ => True) s := ⟨ht, clean_here hcl.hint⟩
  have hE := everything P E c
  unfold step at hst
  rw [hi] at hst
  dsimp only at hst
  unfold execCmd at hst
  obtain ⟨⟨s1, rc⟩, h1, hst⟩ := bind_ok.mp hst
  rw [hk] at h1
  obtain ⟨s2, h3, h4⟩ := bind_ok.mp h1
  cases pure_ok.mp h4
  cases pure_ok.mp hst
  have hn1 : Neat P E c s.out (fun _ => True) ({ s.emit .await with input := rest } : St) := hn.emit trivial
  have hn2 : Neat P E c s.out (fun _ => True) ((({ s.emit .await with input := rest } : St).emit .cursorOff).emit (.lit [0x0A])) :=
    (hn1.emit (s' := ({ s.emit .await with input := rest } : St).emit .cursorOff) trivial).emit trivial
  have hn3 := hn2.emit (s' := ((({ s.emit .await with input := rest } : St).emit .cursorOff).emit (.lit [0x0A])).emit .flush) trivial
  obtain ⟨b, ⟨-, n, rfl⟩, e1, -⟩ := callPromptWriter_text E (((({ s.emit .await with input := rest } : St).emit .cursorOff).emit (.lit [0x0A])).emit .flush)
  have hn4 := prompt_neat hS ho.plain hpr hE.toInks hE hn3
  refine ⟨n, ?_⟩
  have h5 : Clean P E (s.out ++ [.await, .cursorOff, .lit [0x0A], .flush, .lit (signBytes E n)]) (Rowed P E c) s1 := by
    unfold repaintAll at h3
    dsimp only at h3
    refine (repaint_clean hS ho.plain hpr hQ ⟨hn4.easy, ⟨⟨[], ?_, by simp⟩, hn4.clean.hint⟩⟩).ok h3
    rw [List.append_nil]
    refine e1.trans ?_
    show s.out ++ [.await] ++ [.cursorOff] ++ [.lit [0x0A]] ++ [.flush] ++ [.lit (signBytes E n)] = _
    simp
  exact h5.emit hQ.on

theorem Spec.Wiped.reachable (h : Wiped E w s) : Reachable E w s := by
  induction h with
  | now h _ _ hst => exact .step h hst
  | later _ _ hst ih => exact .step ih hst

theorem wiped_rowed (hb : BuiltinKeys E) (ho : Ordinary P E w) (hx : Plainly P E w) {c : Int} (hpr : ∀ n, promptWidth E n = c) (h : Wiped E w s) :
    ∃ t n, Clean P E (w.out ++ (t ++ [.lit wipeAll, .flush, .lit (signBytes E n)])) (Rowed P E c) s := by
  induction h with
  | now h hi hk hst => exact step_wipes hb ho hx hpr h hi hk hst
  | @later s s' h hne hst ih =>
    by_cases hk : ∃ k rest, s.input = .key k :: rest ∧ lookupCommand E k = .clearScreen
    · obtain ⟨k, rest, hi, hk⟩ := hk
      exact step_wipes hb ho hx hpr h.reachable hi hk hst
    · obtain ⟨t, n, hc⟩ := ih
      exact ⟨t, n, step_rowed hb ho hx hpr h.reachable hc hst fun k rest hi => ⟨fun e => hk ⟨k, rest, hi, e⟩, hne k rest hi⟩⟩

end Readline
