import Verif.Proof.Wiped
/-!
# The end of a call from the last wait for a key
-/
namespace Readline
open Spec

variable {E : Env} {w : World} {s u : St} {adv : Rune → Int} {P : Nat → Prop}

/-- What is written from the last wait for a key on. -/
theorem ending_from (hb : BuiltinKeys E) (ho : Ordinary P E w) (hx : Plainly P E w) {c : Int} (hpr : ∀ n, promptWidth E n = c) {r : RLRes}
    (hu : Reachable E w u) (hst : step E u = .ok (s, some r)) (hr : ∀ e, r.err ≠ .tty e) :
    ∃ ts, s.out = u.out ++ ts ++ farewell E.lineFeed r.err ∧ ∀ t ∈ ts, Rowed P E c t := by
  have he := step_ends hb hst
  obtain ⟨k, rest, hi⟩ : ∃ k rest, u.input = .key k :: rest := by
    cases he with
    | enter hi _ => exact ⟨_, _, hi⟩
    | interrupt hi _ => exact ⟨_, _, hi⟩
    | eof hi _ _ => exact ⟨_, _, hi⟩
    | error _ => exact absurd rfl (hr _)
    | exhausted _ => exact absurd rfl (hr _)
  have hst' := hst
  rw [step_key hi] at hst'
  obtain ⟨v, rc, s1, hc, -, h1, g4⟩ := exec_feed (BuiltinKeys.builtin hb k) hst'
  obtain rfl : s = { s1 with out := s1.out ++ farewell E.lineFeed r.err } := by
    have := g4 E.lineFeed
    change execCmd E _ _ = _ at this
    rw [hst'] at this
    injection this with this
    exact (Prod.ext_iff.mp this).1
  have hS := ho.sources.src
  have hQ := rowed_inks P E c
  have hw2 : promptWidth E w.promptN = c := hpr _
  have ht : Easy P E c u := hw2 ▸ ordinary_easy hb ho.modest hu
  have hn : Neat P E c u.out (Rowed P E c) u := ⟨ht, clean_here (ordinary_clean hb ho hx (everything P E _) hu).hint⟩
  have hn1 : Neat P E c u.out (Rowed P E c) ({ u.emit .await with input := rest } : St) := hn.emit hQ.await
  have hn2 : Neat P E c u.out (Rowed P E c) (({ u.emit .await with input := rest } : St).emit .cursorOff) := hn1.emit hQ.off
  have hv : Neat P E c u.out (Rowed P E c) v := by
    cases he with
    | @enter k' rest' hi' hc' =>
      rw [hi] at hi'
      injection hi' with a1 a2
      injection a1 with a1
      subst a1 a2
      rw [hc'] at hc
      injection hc with hc
      obtain ⟨rfl, -⟩ := Prod.ext_iff.mp hc
      exact hn2
    | @interrupt k' rest' hi' hc' =>
      rw [hi] at hi'
      injection hi' with a1 a2
      injection a1 with a1
      subst a1 a2
      rw [hc'] at hc
      injection hc with hc
      obtain ⟨rfl, -⟩ := Prod.ext_iff.mp hc
      have h5 := hn2.clean
      obtain ⟨t, h3, h4⟩ := hn2.easy
      exact ⟨⟨⟨(by intro m hm; cases hm), (by intro m hm; cases hm), t.suffix, (by intro m hm; cases hm), t.pending, t.whole, t.modHist, t.clip⟩, h3, h4⟩, h5.of⟩
    | @eof k' rest' hi' hc' hul =>
      rw [hi] at hi'
      injection hi' with a1 a2
      injection a1 with a1
      subst a1 a2
      have hbuf : u.buf = [] := by
        rw [St.units_eq] at hul
        exact List.map_eq_nil_iff.mp (List.map_eq_nil_iff.mp hul)
      have hc0 : Cmd.call E .deleteOrAbort ({ u.emit .await with input := rest }.emit .cursorOff) =
          .ok ({ u.emit .await with input := rest }.emit .cursorOff, .abort) := by
        show cmdDeleteOrAbort E _ = _
        unfold cmdDeleteOrAbort
        rw [if_neg]
        · rfl
        · simp [St.len, St.emit, hbuf]
      rw [hc', hc0] at hc
      injection hc with hc
      obtain ⟨rfl, -⟩ := Prod.ext_iff.mp hc
      exact hn2
    | error _ => exact absurd rfl (hr _)
    | exhausted _ => exact absurd rfl (hr _)
  have h2 : Clean P E u.out (Rowed P E c) s1 := by
    have hv1 : Neat P E c u.out (Rowed P E c) (v.emit .cursorOn) := hv.emit hQ.on
    cases hs : v.suffix with
    | none =>
      rw [hs] at h1
      injection h1 with h1
      rw [← h1]
      exact hv1.clean
    | some y =>
      rw [hs] at h1
      have hq : Neat P E c u.out (Rowed P E c) { v.emit .cursorOn with suffix := none } := by
        obtain ⟨⟨t, h3, h4⟩, h5, h6⟩ := hv1
        exact ⟨⟨⟨t.built, t.line, (by show Spec.Over P []; intro m hm; rw [runesOf_nil] at hm; cases hm), t.undoes, t.pending, t.whole, t.modHist, t.clip⟩, h3, h4⟩, h5, (by intro m hm; cases hm)⟩
      exact ((repaintNoSuffix_neat hS ho.plain hpr hQ hq).ok h1).clean
  obtain ⟨ts, e, hts⟩ := h2.out
  exact ⟨ts, by show s1.out ++ _ = _; rw [e], hts⟩

end Readline
