import Verif.Proof.Room
import Verif.Proof.Source
import Verif.Proof.VisSession
import Verif.Proof.Waits
/-!
# Ordinary sessions are steady
-/
namespace Readline
open Spec

variable {P : Nat → Prop} {E : Env} {w : World} {s : St} {C : Cfg}

/-- The units of one character other than a tab. -/
def Moji.single : Moji → Bool
  | .raw _ | .esc _ | .ri _ | .ctrl _ | .flag _ => true
  | _ => false

theorem single_norm {m : Moji} (h : m.norm.single = true) : m.norm = m := by
  cases m <;> first | rfl | cases h

theorem plain_columns {r : Rune} (h : Plain C r) : (rune2moji C r 0).single = true ∧
    (rune2moji C r 0).width C = plainColumns C r ∧ 1 ≤ plainColumns C r ∧ plainColumns C r ≤ 2 := by
  have hv : isVariationSelectorLike C r = false := by
    cases hx : isVariationSelectorLike C r with
    | false => rfl
    | true =>
      unfold isVariationSelectorLike at hx
      rw [Bool.and_eq_true] at hx
      exact absurd (Or.inr (Or.inl hx)) h.alone
  have hs : (decide (0x10000 ≤ r) && !C.surrogateOk) = false := by
    rcases h.shown with hs | hs
    · rw [decide_eq_false (by omega)]; rfl
    · rw [hs]; simp
  unfold rune2moji plainColumns
  rw [if_neg h.noTab]
  by_cases h1 : r < 0x20
  · rw [if_pos h1, if_pos (Or.inl h1)]
    exact ⟨rfl, rfl, by omega, by omega⟩
  · obtain ⟨w1, w2⟩ := h.columns.resolve_left h1
    rw [if_neg h1]
    by_cases h2 : 0x2500 ≤ r ∧ r ≤ 0x257F ∧ C.ambWide = true
    · rw [if_pos h2, if_pos (Or.inr (Or.inl h2))]
      exact ⟨rfl, rfl, by omega, by omega⟩
    · rw [if_neg h2]
      have he : isToBeEscaped C r = false := by
        unfold isToBeEscaped
        rw [hv, hs, decide_eq_false (by omega)]
        rfl
      rw [if_neg (by rw [he]; simp)]
      by_cases h3 : 0x1F1E6 ≤ r ∧ r ≤ 0x1F1FF
      · rw [if_pos h3, if_pos (Or.inr (Or.inr (Or.inl h3)))]
        exact ⟨rfl, rfl, by omega, by omega⟩
      · rw [if_neg h3]
        by_cases h4 : 0x1D400 ≤ r ∧ r ≤ 0x1D7FF
        · rw [if_pos h4, if_pos (Or.inr (Or.inr (Or.inr (Or.inl h4))))]
          exact ⟨rfl, rfl, by omega, by omega⟩
        · rw [if_neg h4]
          by_cases h5 : r = 0x1F3F3
          · rw [if_pos h5, if_pos (Or.inr (Or.inr (Or.inr (Or.inr h5))))]
            exact ⟨rfl, rfl, by omega, by omega⟩
          · rw [if_neg h5, if_neg (by rintro (h | h | h | h | h); exact h1 h; exact h2 h; exact h3 h; exact h4 h; exact h5 h)]
            exact ⟨rfl, rfl, w1, w2⟩

theorem over_encode {r : Rune} (h : isScalar r = true) (ho : Over P (encodeRune r)) : P r := by
  apply ho
  have := runesOf_encode_append h []
  rw [List.append_nil] at this
  rw [this]; simp

/-- A unit over ordinary characters is one character. -/
theorem built_plain {m : Moji} (hm : Built C m) (hp : ∀ r, P r → Plain C r) (ho : Over P m.write) :
    ∃ r, P r ∧ m = rune2moji C r 0 := by
  cases hm with
  | @base r h =>
    rw [Moji.norm_write, rune2moji_write] at ho
    have hr := over_encode h ho
    refine ⟨r, hr, ?_⟩
    have hs := (plain_columns (hp r hr)).1
    revert hs
    cases rune2moji C r 0 <;> intro hs <;> first | rfl | cases hs
  | @zwj m n hz hm _ =>
    have h1 : Over P (m.write ++ encodeRune zwjRune) := ((over_append (ValidUtf8.append hm.valid (validUtf8_encodeRune _))).mp ho).1
    have h2 := over_encode (by decide) ((over_append hm.valid).mp h1).2
    exact absurd (Or.inl ⟨hz, Or.inr rfl⟩) (hp _ h2).alone
  | @vari m r hm hr _ hv =>
    have h2 := over_encode hr ((over_append hm.valid).mp ho).2
    unfold isVariationSelectorLike at hv
    rw [Bool.and_eq_true] at hv
    exact absurd (Or.inr (Or.inl hv)) (hp _ h2).alone
  | @modi m r hm hr _ _ hv =>
    have h2 := over_encode hr ((over_append hm.valid).mp ho).2
    unfold isEmojiModifier at hv
    simp only [Bool.and_eq_true, decide_eq_true_eq] at hv
    exact absurd (Or.inr (Or.inr hv)) (hp _ h2).alone

/-- Every unit of the line is an ordinary character. -/
theorem ordinary_units (hb : BuiltinKeys E) (hs : Sources P E w) (hp : ∀ r, P r → Plain E.cfg r) (h : Reachable E w s) :
    ∀ m ∈ s.mojis, ∃ r, P r ∧ m = rune2moji E.cfg r 0 := by
  intro m hm
  have hf := reachable_from hb hs h
  have hl : m.norm ∈ s.ed.line := by
    show m.norm ∈ s.line
    unfold St.mojis at hm
    obtain ⟨c, hc, rfl⟩ := List.mem_map.mp hm
    exact List.mem_map.mpr ⟨c, hc, rfl⟩
  obtain ⟨r, hr, e⟩ := built_plain (hf.built _ hl) hp (hf.line _ hl)
  have e : m.norm = rune2moji E.cfg r 0 := e
  refine ⟨r, hr, ?_⟩
  rw [← e, single_norm]
  rw [e]
  exact (plain_columns (hp r hr)).1

theorem modest_top (hb : BuiltinKeys E) (ho : Modest P E w) (h : Reachable E w s) :
    s.topColumn = promptWidth E w.promptN := by
  rcases reachable_top (BuiltinKeys.builtin hb) h with ⟨h, h2⟩ | ⟨_, h, _⟩ | ⟨n, h⟩
  · rcases ho.top with hn | hn
    · rw [hn] at h; cases h
    · rw [h2, hn]
  · have := ho.room; omega
  · rw [h, ho.prompt]

theorem ordinary_top (hb : BuiltinKeys E) (ho : Ordinary P E w) (h : Reachable E w s) :
    s.topColumn = promptWidth E w.promptN := modest_top hb ho.modest h

theorem ordinary_view (hb : BuiltinKeys E) (ho : Ordinary P E w) (h : Reachable E w s) : 2 < s.viewWidth := by
  unfold St.viewWidth
  rw [ordinary_top hb ho h]
  rcases reachable_width (BuiltinKeys.builtin hb) h with hw | hw
  · have := ho.room; omega
  · have := ho.resized _ hw; omega

theorem ordinary_steady (hb : BuiltinKeys E) (ho : Ordinary P E w) : Steady E w where
  fine s h := by
    have hu := ordinary_units hb ho.sources ho.plain h
    have hv := ordinary_view hb ho h
    refine ⟨fun p hp => ?_, by omega, fun m hm => ?_, 1, fun m hm => ?_⟩
    · obtain ⟨r, hr, e⟩ := hu _ hp
      have := (plain_columns (ho.plain r hr)).1
      rw [← e] at this
      cases this
    · obtain ⟨r, hr, rfl⟩ := hu _ hm
      obtain ⟨-, h1, h2, h3⟩ := plain_columns (ho.plain r hr)
      omega
    · obtain ⟨r, hr, rfl⟩ := hu _ hm
      obtain ⟨-, h1, h2, h3⟩ := plain_columns (ho.plain r hr)
      omega
  errors := ho.errors
  prompt s s' k rest h hst _ := by
    rw [ordinary_top hb ho h, ordinary_top hb ho (.step h hst)]
    omega
  swap s k rest h hi hc := by
    have hk : .key k ∈ w.input := (reachable_input hb h).subset (by rw [hi]; simp)
    obtain ⟨c, hc⟩ := ho.swap k hk hc
    refine ⟨c, fun m hm => ?_⟩
    obtain ⟨r, hr, rfl⟩ := ordinary_units hb ho.sources ho.plain h _ hm
    rw [(plain_columns (ho.plain r hr)).2.1, hc r hr]

/-- With the default keys a key inserts itself or nothing. -/
theorem env_typed {E : Env} {w : World} {k : Bytes} (hk : E.keyMap = none)
    (hg : E.globalKeyMap = defaultGlobalKeyMap) (h : FromKey E w k) : .key k ∈ w.input := by
  rcases h with ⟨q, hq, hc⟩ | h
  · have h1 : ∀ p ∈ globalTable, (match p.2 with | .selfInsert _ => true | _ => false) = false := by decide
    have h2 : lookupCommand E q = match assoc globalTable q with
      | some f => f
      | none => .selfInsert q := by unfold lookupCommand; rw [hk, hg]; rfl
    rw [h2] at hc
    split at hc
    · rename_i f' hf
      unfold assoc at hf
      cases hp : globalTable.find? (fun p => p.1 == q) with
      | none => rw [hp] at hf; cases hf
      | some p =>
        rw [hp] at hf
        have := h1 p (List.mem_of_find?_eq_some hp)
        simp only [Option.map_some, Option.some.injEq] at hf
        rw [hf, hc] at this
        cases this
    · injection hc with hc
      exact hc ▸ hq
  · exact h.2

theorem env_completion {q : Bytes} {K : Completing} (hk : E.keyMap = none)
    (hg : E.globalKeyMap = defaultGlobalKeyMap) : lookupCommand E q ≠ .completion K := by
  intro hc
  have h1 : ∀ p ∈ globalTable, (match p.2 with | .completion _ => true | _ => false) = false := by decide
  have h2 : lookupCommand E q = match assoc globalTable q with
    | some f => f
    | none => .selfInsert q := by unfold lookupCommand; rw [hk, hg]; rfl
  rw [h2] at hc
  split at hc
  · rename_i f' hf
    unfold assoc at hf
    cases hp : globalTable.find? (fun p => p.1 == q) with
    | none => rw [hp] at hf; cases hf
    | some p =>
      rw [hp] at hf
      have := h1 p (List.mem_of_find?_eq_some hp)
      simp only [Option.map_some, Option.some.injEq] at hf
      rw [hf, hc] at this
      cases this
  · cases hc

instance (C : Cfg) (r : Nat) : Decidable (Plain C r) :=
  decidable_of_iff (¬ Joins C r ∧ r ≠ 9 ∧ (r < 0x10000 ∨ C.surrogateOk = true) ∧
    (r < 0x20 ∨ (1 ≤ C.width r ∧ C.width r ≤ 2)))
    ⟨fun h => ⟨h.1, h.2.1, h.2.2.1, h.2.2.2⟩, fun h => ⟨h.1, h.2, h.3, h.4⟩⟩

/-- All characters of the text are ordinary and satisfy `p`. -/
def plainText (p : Nat → Bool) (C : Cfg) (t : Bytes) : Bool := (runesOf t).all fun r => p r && decide (Plain C r)

/-- A check of the conditions `Ordinary` for the default keys and the default prompt. -/
def ordinaryCheck (p : Nat → Bool) (E : Env) (w : World) : Bool :=
  plainText p E.cfg E.default && E.history.all (plainText p E.cfg) && w.clip.all (plainText p E.cfg) &&
  decide (7 < w.termWidth) && p 0x22 && decide (Plain E.cfg 0x22) &&
  w.input.all (fun ev => match ev with
    | .key k => (match lookupCommand E k with
      | .selfInsert k => plainText p E.cfg (inserted k)
      | .quotedInsert => false
      | _ => true)
    | .resize n => decide (7 < n)
    | .err _ => false)

theorem plainText_over {p : Nat → Bool} {t : Bytes} (h : plainText p C t = true) :
    Over (fun r => p r = true ∧ Plain C r) t := by
  unfold plainText at h
  rw [List.all_eq_true] at h
  intro r hr
  have := h r hr
  rw [Bool.and_eq_true] at this
  exact ⟨this.1, of_decide_eq_true this.2⟩

theorem ordinaryCheck_ok {p : Nat → Bool} (hk : E.keyMap = none) (hg : E.globalKeyMap = defaultGlobalKeyMap)
    (hq : E.predictor = none) (hc : E.clipSet = fun _ t => some t) (hp : E.prompt = none) (hn : E.promptErr = none)
    (hs : ∀ q, .key q ∈ w.input → lookupCommand E q = .swapChar → ∃ k, ∀ r, p r = true → Plain E.cfg r → plainColumns E.cfg r = k)
    (h : ordinaryCheck p E w = true) : Ordinary (fun r => p r = true ∧ Plain E.cfg r) E w := by
  unfold ordinaryCheck at h
  simp only [Bool.and_eq_true, List.all_eq_true] at h
  obtain ⟨⟨⟨⟨⟨⟨h1, h2⟩, h3⟩, h4⟩, h5⟩, h6⟩, h7⟩ := h
  have keyOk : ∀ k, FromKey E w k → plainText p E.cfg (inserted k) = true := by
    rintro k (⟨q, hq, hc⟩ | ⟨⟨q, hq, hc⟩, -⟩)
    · have := h7 _ hq
      dsimp only at this
      rw [hc] at this
      exact this
    · have := h7 _ hq
      dsimp only at this
      rw [hc] at this
      cases this
  have hw : ∀ n, promptWidth E n = 2 := fun n => by unfold promptWidth; rw [hp]
  have nj : ∀ r, (p r = true ∧ Plain E.cfg r) → E.cfg.zwjOk = true → r = 0x200C ∨ r = 0x200D → False :=
    fun r hr hz h => hr.2.alone (Or.inl ⟨hz, h⟩)
  refine ⟨⟨plainText_over h1, fun t ht => plainText_over (h2 t ht), fun t ht => ?_, fun c t u hu => ?_, fun f hf => ?_,
    fun k hk' => plainText_over (keyOk k hk'), fun q K _ hc' => absurd hc' (env_completion hk hg),
    fun q _ _ => ⟨h5, of_decide_eq_true h6⟩, fun hz hj => ?_, fun hz k hk' hj => ?_⟩, fun r hr => hr.2, hn, fun n => ?_, ?_,
    fun n hr => ?_, fun e he => ?_, fun q hq' hc' => ?_⟩
  · rw [ht] at h3; exact plainText_over h3
  · rw [hc] at hu
    injection hu with hu
    exact Or.inl hu.symm
  · rw [hq] at hf; cases hf
  · rcases hj with hj | hj
    · exact (nj _ hj hz (Or.inl rfl)).elim
    · exact (nj _ hj hz (Or.inr rfl)).elim
  · have ho := plainText_over (keyOk k hk')
    cases hi : inserted k with
    | nil => exact ValidUtf8.nil
    | cons x t =>
      rw [hi] at hj ho
      exact (nj _ (ho _ (by rw [runesOf_cons]; simp)) hz hj).elim
  · rw [hw, hw]
  · rw [hw]; have := of_decide_eq_true h4; omega
  · rw [hw]
    have := of_decide_eq_true (h7 _ hr)
    omega
  · have := h7 _ ((List.dropLast_sublist _).subset he)
    cases this
  · obtain ⟨k, hk⟩ := hs q hq' hc'
    exact ⟨k, fun r hr => hk r hr.1 hr.2⟩

theorem over_inserted {k : Bytes} (h : Over P k) : Over P (inserted k) := by
  unfold inserted
  split
  · exact ((over_stop (a := []) (c := 0x1B) (by decide)).mp h).2.2
  · exact h

theorem env_swap {q : Bytes} (hk : E.keyMap = none) (hg : E.globalKeyMap = defaultGlobalKeyMap)
    (hc : lookupCommand E q = .swapChar) : q = [0x14] := by
  have h1 : ∀ p ∈ globalTable, (match p.2 with | .swapChar => decide (p.1 = [0x14]) | _ => true) = true := by decide
  have h2 : lookupCommand E q = match assoc globalTable q with
    | some f => f
    | none => .selfInsert q := by unfold lookupCommand; rw [hk, hg]; rfl
  rw [h2] at hc
  split at hc
  · rename_i f' hf
    unfold assoc at hf
    cases hp : globalTable.find? (fun p => p.1 == q) with
    | none => rw [hp] at hf; cases hf
    | some p =>
      rw [hp] at hf
      have h3 := h1 p (List.mem_of_find?_eq_some hp)
      have h4 := List.find?_some hp
      simp only [Option.map_some, Option.some.injEq] at hf
      rw [hf, hc] at h3
      rw [← eq_of_beq h4]
      exact of_decide_eq_true h3
  · cases hc

theorem predictsOver_none {P : Nat → Prop} (h : E.predictor = none) : PredictsOver P E := by
  intro f hf
  rw [h] at hf
  cases hf

/-- With keys that do not complete and a prompt of two columns, ordinary texts are enough. -/
theorem modest_two (hcm : ∀ q K, lookupCommand E q ≠ .completion K) (hq : PredictsOver (Plain E.cfg) E)
    (hc : E.clipSet = fun _ t => some t) (hpw : ∀ n, promptWidth E n = 2)
    (ht : ∀ t, t = E.default ∨ t ∈ E.history ∨ w.clip = some t ∨ FromKey E w t → Over (Plain E.cfg) t)
    (h22 : Plain E.cfg 0x22) (hw : 7 < w.termWidth) (hr : ∀ n, .resize n ∈ w.input → 7 < n) :
    Modest (Plain E.cfg) E w := by
  have keyOk : ∀ k, FromKey E w k → Over (Plain E.cfg) (inserted k) := fun k h =>
    over_inserted (ht k (Or.inr (Or.inr (Or.inr h))))
  have nj : ∀ r, Plain E.cfg r → E.cfg.zwjOk = true → r = 0x200C ∨ r = 0x200D → False :=
    fun r hr hz h => hr.alone (Or.inl ⟨hz, h⟩)
  refine ⟨⟨ht _ (Or.inl rfl), fun t h => ht t (Or.inr (Or.inl h)), fun t h => ht t (Or.inr (Or.inr (Or.inl h))),
    fun c t u hu => ?_, hq, keyOk, fun q K _ hc' => absurd hc' (hcm q K), fun _ _ _ => h22,
    fun hz hj => ?_, fun hz k hk' hj => ?_⟩, fun r hr => hr, Or.inr (hpw _), fun n => ?_, ?_, fun n h => ?_⟩
  · rw [hc] at hu
    injection hu with hu
    exact Or.inl hu.symm
  · rcases hj with hj | hj
    · exact (nj _ hj hz (Or.inl rfl)).elim
    · exact (nj _ hj hz (Or.inr rfl)).elim
  · have ho := keyOk k hk'
    cases hi : inserted k with
    | nil => exact ValidUtf8.nil
    | cons x t =>
      rw [hi] at hj ho
      exact (nj _ (ho _ (by rw [runesOf_cons]; simp)) hz hj).elim
  · rw [hpw, hpw]
  · rw [hpw]; omega
  · rw [hpw]; have := hr n h; omega

/-- With keys that do not complete and the default prompt, ordinary texts are enough. -/
theorem modest_bound (hcm : ∀ q K, lookupCommand E q ≠ .completion K) (hq : PredictsOver (Plain E.cfg) E)
    (hc : E.clipSet = fun _ t => some t) (hp : E.prompt = none)
    (ht : ∀ t, t = E.default ∨ t ∈ E.history ∨ w.clip = some t ∨ FromKey E w t → Over (Plain E.cfg) t)
    (h22 : Plain E.cfg 0x22) (hw : 7 < w.termWidth) (hr : ∀ n, .resize n ∈ w.input → 7 < n) :
    Modest (Plain E.cfg) E w :=
  modest_two hcm hq hc (fun n => by unfold promptWidth; rw [hp]) ht h22 hw hr

/-- With the default keys and prompt, ordinary texts are enough. -/
theorem modest_texts (hk : E.keyMap = none) (hg : E.globalKeyMap = defaultGlobalKeyMap) (hq : E.predictor = none)
    (hc : E.clipSet = fun _ t => some t) (hp : E.prompt = none)
    (ht : ∀ t, t = E.default ∨ t ∈ E.history ∨ w.clip = some t ∨ FromKey E w t → Over (Plain E.cfg) t)
    (h22 : Plain E.cfg 0x22) (hw : 7 < w.termWidth) (hr : ∀ n, .resize n ∈ w.input → 7 < n) :
    Modest (Plain E.cfg) E w :=
  modest_bound (fun _ _ => env_completion hk hg) (predictsOver_none hq) hc hp ht h22 hw hr

/-- Ordinary texts make an ordinary session. -/
theorem ordinary_texts (hk : E.keyMap = none) (hg : E.globalKeyMap = defaultGlobalKeyMap) (hq : E.predictor = none)
    (hc : E.clipSet = fun _ t => some t) (hp : E.prompt = none) (hn : E.promptErr = none)
    (ht : ∀ t, t = E.default ∨ t ∈ E.history ∨ w.clip = some t ∨ FromKey E w t → Over (Plain E.cfg) t)
    (h22 : Plain E.cfg 0x22) (hs : .key [0x14] ∉ w.input) (he : ∀ e, Ev.err e ∉ w.input.dropLast)
    (hw : 7 < w.termWidth) (hr : ∀ n, .resize n ∈ w.input → 7 < n) : Ordinary (Plain E.cfg) E w := by
  have h := modest_texts hk hg hq hc hp ht h22 hw hr
  refine ⟨h.sources, h.plain, hn, h.prompt, h.room, h.resized, he, fun q hq' hc' => ?_⟩
  rw [env_swap hk hg hc'] at hq'
  exact absurd hq' hs

end Readline
