import Verif.Proof.Scroll
import Verif.Props.C79
/-!
# C82: the screen of a program that reads lines is a transcript

From the keys to all the rows of the terminal: above the row of the line that is edited stand the lines that were entered, the
last one first, each behind its prompt with a row in between, and above them what stood there before the program.
-/
namespace Readline
open Spec

variable {E : Env} {w : World} {D : Desk} {t : List Char} {n : Nat} {clip : Option (List Char)} {ks : List (List Char)}
  {adv : Rune → Int} {v : Vt} {rooms : Int → Prop} {S : Sign}

theorem Spec.Transcript.lift {C : Cfg} {v v' : Vt} {d e : Int} {ps : List Page} (h : Transcript S C adv rooms v d ps) (hl : Raised S v v' e)
    (hd : 1 ≤ d) : Transcript S C adv rooms v' (e + d) ps := by
  have hS := drop_range S
  induction ps generalizing d with
  | nil => trivial
  | cons p ps ih =>
    obtain ⟨⟨room, h1, h2⟩, h3⟩ := h
    refine ⟨⟨room, h1, ?_⟩, ?_⟩
    · have e1 := hl d (by omega) (.inr hd)
      unfold RowShows Sign.At at h2 ⊢
      rw [e1]
      exact h2
    · rw [show e + d + (1 + S.drop) = e + (d + (1 + S.drop)) by omega]
      exact ih h3 (by omega)

theorem plays_entered {m : Nat} {p q : Page} {l : List Char} {rest : List (List Char)} (h : plays D m p ks = (.entered l, q, rest)) :
    l = q.text := by
  induction m generalizing p ks with
  | zero => cases h
  | succ m ih =>
    cases ks with
    | nil => cases h
    | cons k ks =>
      rw [plays] at h
      cases htn : turn D p k ks with
      | inl x => rw [htn] at h; exact ih h
      | inr e => rw [htn] at h; cases h; exact (turn_enters htn).2

/-- What a call that has entered a line leaves. -/
theorem call_entered {keepC : List Char → Bool} (h : PlainDesk E w D t n clip ks) (hC : Console S E w D t clip ks adv v)
    (hl : ∀ k ∈ ks, D.verb k ≠ .redraw) (hlf : E.lineFeed = none) (hv : v.row < v.height)
    (hrooms : ∀ x, x = w.termWidth ∨ .resize x ∈ w.input → rooms (x - S.columns E.cfg - 3)) {ps : List Page} (hT : Transcript S E.cfg adv rooms v 1 ps)
    {s : St} {r : RLRes} (hrl : readLine E w = .ok (s, r)) (hn : r.err = .nil) :
    ∃ l p rest o, oneLine D t n clip ks = (.entered l, p, rest) ∧ r.text = utf8 l ∧ s.out = w.out ++ o ∧ (∃ rs, Reads (bytesOf E.cfg o) rs) ∧
      PlainDesk { E with history := if keepC l then E.history ++ [r.text] else E.history } s.world
        { D with history := if keepC l then D.history ++ [l] else D.history } t p.left.length p.clip rest ∧
      Console S { E with history := if keepC l then E.history ++ [r.text] else E.history } s.world
        { D with history := if keepC l then D.history ++ [l] else D.history } t p.clip rest adv (v.run adv (bytesOf E.cfg o)) ∧
      (v.run adv (bytesOf E.cfg o)).row < (v.run adv (bytesOf E.cfg o)).height ∧
      (∀ x, x = s.termWidth ∨ .resize x ∈ s.input → rooms (x - S.columns E.cfg - 3)) ∧ rest <:+ ks ∧ rest.length < ks.length ∧ s.input.length < w.input.length ∧
      Transcript S E.cfg adv rooms (v.run adv (bytesOf E.cfg o)) 1 (p :: ps) ∧ Raised S v (v.run adv (bytesOf E.cfg o)) (1 + S.drop) := by
  have hb := h.setting.builtin
  obtain ⟨l, p, rest, g1, g2, g3, g4, g5, g6, g7, g8⟩ := line_entered h.setting hrl hn
  obtain ⟨o, u, a1, a2, a3, a4, a5, a6, a7, a8, a9, a10⟩ := call_end h hC hl hlf hrl (by rw [hn]; intro e; simp)
  have hur : u.row < u.height := by rw [a3.row, a3.height]; exact base_row S hv
  have hl1 : Raised S v u S.drop := base_raised S hv a3
  have hl2 : Lifted u (v.run adv (bytesOf E.cfg o)) 1 := by
    intro k hk
    rw [a4, a5]
    exact newline_lifted hur k hk
  have hS := drop_range S
  have hl3 : Raised S v _ (1 + S.drop) := hl1.trans hl2.raised hS.1
  obtain ⟨-, x, -, -, -, hsub⟩ := readLine_takes hb hrl hn
  have hin : s.input.Sublist w.input := (List.sublist_cons_self _ _).trans hsub
  have hwid : s.termWidth = w.termWidth ∨ .resize s.termWidth ∈ w.input := by
    obtain ⟨t', htr', hst⟩ := readLine_reachable hrl
    have hbb := fun k => BuiltinKeys.builtin hb k
    exact ((reachable_says hbb true htr').trans ((step_says hbb t').ok hst)).width
  have htext : s.text = utf8 p.text := by
    rw [(C51_ordinary_partial (console_sane hC) hb (console_ordinary h hC) hrl hn).1, g2, plays_entered g1]
  refine ⟨l, p, rest, o, g1, g2, a1, a2, desk_next h hrl hn g2 g3 g4 g5 g7, console_next h hC hrl hn g2 g4 g7 a7 a6 a8, ?_, ?_, g7, g8, g6, ⟨?_, ?_⟩, hl3⟩
  · rw [a5, a9]; exact newline_row u hur
  · rintro x (rfl | hx)
    · exact hrooms _ hwid
    · exact hrooms _ (.inr (hin.subset hx))
  · refine ⟨s.termWidth - S.columns E.cfg - 3, hrooms _ hwid, ?_⟩
    have h1 := a10 hn
    rw [htext, runesOf_utf8, g3] at h1
    have h2 := hl2 0 (by decide)
    rw [show (1 : Int) + 0 = 1 from rfl, show u.row - 0 = u.row by omega] at h2
    unfold RowShows Sign.At at h1 ⊢
    rw [h2]
    exact h1
  · rw [show (1 : Int) + (1 + S.drop) = 1 + S.drop + 1 by omega]
    exact hT.lift hl3 (by decide)

/-- **Whenever a key is awaited**: the page of the textbook at the cursor, the lines that were entered above it. -/
theorem amid_transcript {keep : Bytes → Bool} {keepC : List Char → Bool} (hkeep : ∀ l, keep (utf8 l) = keepC l) (hlf : E.lineFeed = none)
    {c : Container} {s : St} (ha : Amid E keep c w s) (hn : noResize s.input ≠ []) :
    ∀ {hist : List (List Char)} {n : Nat} {clip : Option (List Char)} {ks : List (List Char)} {v : Vt} {ps : List Page},
      PlainDesk { E with history := c.buffer } w { D with history := hist } t n clip ks →
      Console S { E with history := c.buffer } w { D with history := hist } t clip ks adv v → (∀ k ∈ ks, D.verb k ≠ .redraw) →
      v.row < v.height → (∀ x, x = w.termWidth ∨ .resize x ∈ w.input → rooms (x - S.columns E.cfg - 3)) → Transcript S E.cfg adv rooms v 1 ps →
      ∃ ps' p r o hint, Opened D keepC t ps hist n clip ks ps' p r ∧ keysIn s.input = r.map utf8 ∧ s.out = w.out ++ o ∧
        ShowsPage S E.cfg adv (v.run adv (bytesOf E.cfg o)) (s.termWidth - S.columns E.cfg - 3) p hint ∧
        Transcript S E.cfg adv rooms (v.run adv (bytesOf E.cfg o)) (1 + S.drop) ps' ∧
        Raised S v (v.run adv (bytesOf E.cfg o)) ((1 + S.drop) * (ps'.length - ps.length) + S.drop) := by
  induction ha with
  | @here c w s hr =>
    intro hist n clip ks v ps h hC hl hv hrooms hT
    obtain ⟨p, r, h1, h2, h3⟩ := reachable_drawn h.setting hr
    obtain ⟨o, hint, h4, h5, -⟩ := portrays_shows h hC hr h2 hn
    obtain ⟨o', h6, h7⟩ := call_during h hC hl hr hn
    obtain rfl := List.append_cancel_left (h4.symm.trans h6)
    have hl1 : Raised S v (v.run adv (bytesOf E.cfg o)) S.drop := base_raised S hv h7
    exact ⟨ps, p, r, o, hint, .here h1, h3.keys, h4, h5, by rw [Int.add_comm]; exact hT.lift hl1 (by decide), by
      rw [Int.sub_self, Int.mul_zero, Int.zero_add]; exact hl1⟩
  | @next c w s r s' hrl hnil _ ih =>
    intro hist n clip ks v ps h hC hl hv hrooms hT
    obtain ⟨l, p, rest, o, g1, g2, g3, ⟨rs, hrs⟩, g4, g5, g6, g7, g8, g9, g10, g11, g12⟩ := call_entered (keepC := keepC) h hC hl hlf hv hrooms hT hrl hnil
    have hb : (if keep r.text then c.add r.text else c).buffer = if keepC l then c.buffer ++ [r.text] else c.buffer := by
      rw [g2, hkeep]
      split <;> rfl
    obtain ⟨ps', q, r', o', hint, q1, q2, q3, q4, q5, q6⟩ := ih hn (by rw [hb]; exact g4) (by rw [hb]; exact g5)
      (fun k hk => hl k (g8.subset hk)) g6 g7 g11
    have hcut : v.run adv (bytesOf E.cfg (o ++ o')) = (v.run adv (bytesOf E.cfg o)).run adv (bytesOf E.cfg o') := by
      unfold bytesOf at hrs ⊢
      rw [List.flatMap_append, hrs.cut]
    have q3 : s'.out = s.out ++ o' := q3
    refine ⟨ps', q, r', o ++ o', hint, .next g1 q1, q2, by rw [q3, g3, List.append_assoc], by rw [hcut]; exact q4, by rw [hcut]; exact q5, ?_⟩
    rw [hcut]
    have hS := drop_range S
    have := g12.trans q6 (by omega)
    rw [List.length_cons] at this
    rw [show ((1 + S.drop) * ((ps'.length : Int) - ps.length) + S.drop) = (1 + S.drop) * ((ps'.length : Int) - (ps.length + 1 : Nat)) + S.drop + (1 + S.drop) by
      rcases drop_cases S with e | e <;> rw [e] <;> omega]
    exact this

/-- **At the end**, if it is one by Ctrl-C or Ctrl-D: the lines that were entered, above them what was there before. -/
theorem readLines_transcript {keep : Bytes → Bool} {keepC : List Char → Bool} (hkeep : ∀ l, keep (utf8 l) = keepC l) (hlf : E.lineFeed = none)
    (m : Nat) : ∀ {w : World} {c : Container} {hist : List (List Char)} {n : Nat} {clip : Option (List Char)} {ks : List (List Char)} {f : Nat}
      {v : Vt} {ps : List Page} {x : Container × RLErr × World},
      PlainDesk { E with history := c.buffer } w { D with history := hist } t n clip ks →
      Console S { E with history := c.buffer } w { D with history := hist } t clip ks adv v → (∀ k ∈ ks, D.verb k ≠ .redraw) →
      v.row < v.height → (∀ x, x = w.termWidth ∨ .resize x ∈ w.input → rooms (x - S.columns E.cfg - 3)) → Transcript S E.cfg adv rooms v 1 ps →
      ks.length < f → readLines E keep m c w = .ok x → (∀ e, x.2.1 ≠ .tty e) →
      ∃ o, x.2.2.out = w.out ++ o ∧ (v.run adv (bytesOf E.cfg o)).mode = .ground ∧ (v.run adv (bytesOf E.cfg o)).col = 0 ∧
        (v.run adv (bytesOf E.cfg o)).row < (v.run adv (bytesOf E.cfg o)).height ∧
        Transcript S E.cfg adv rooms (v.run adv (bytesOf E.cfg o)) (2 + S.drop) (leaves D keepC t f ps hist n clip ks) ∧
        Raised S v (v.run adv (bytesOf E.cfg o)) ((1 + S.drop) * ((leaves D keepC t f ps hist n clip ks).length - ps.length) + (1 + S.drop)) := by
  induction m with
  | zero => intro w c hist n clip ks f v ps x _ _ _ _ _ _ _ hx; cases hx
  | succ m ih =>
    intro w c hist n clip ks f v ps x h hC hl hv hrooms hT hf hx he
    obtain ⟨f, rfl⟩ : ∃ x, f = x + 1 := ⟨f - 1, by omega⟩
    rw [readLines] at hx
    obtain ⟨⟨s, r⟩, hrl, hx⟩ := bind_ok.mp hx
    have hx : (match r.err with
          | .nil => readLines E keep m (if keep r.text then c.add r.text else c) s.world
          | err => pure (c, err, s.world)) = .ok x := hx
    by_cases hn : r.err = .nil
    · rw [hn] at hx
      have hx : readLines E keep m (if keep r.text then c.add r.text else c) s.world = .ok x := hx
      obtain ⟨l, p, rest, o, g1, g2, g3, ⟨rs, hrs⟩, g4, g5, g6, g7, g8, g9, g10, g11, g12⟩ := call_entered (keepC := keepC) h hC hl hlf hv hrooms hT hrl hn
      have hb : (if keep r.text then c.add r.text else c).buffer = if keepC l then c.buffer ++ [r.text] else c.buffer := by
        rw [g2, hkeep]
        split <;> rfl
      obtain ⟨o', q1, q2, q3, q4, q5, q6⟩ := ih (f := f) (by rw [hb]; exact g4) (by rw [hb]; exact g5)
        (fun k hk => hl k (g8.subset hk)) g6 g7 g11 (by omega) hx he
      have hcut : v.run adv (bytesOf E.cfg (o ++ o')) = (v.run adv (bytesOf E.cfg o)).run adv (bytesOf E.cfg o') := by
        unfold bytesOf at hrs ⊢
        rw [List.flatMap_append, hrs.cut]
      have q1 : x.2.2.out = s.out ++ o' := q1
      rw [leaves, g1]
      refine ⟨o ++ o', by rw [q1, g3, List.append_assoc], by rw [hcut]; exact q2, by rw [hcut]; exact q3, by rw [hcut]; exact q4, by rw [hcut]; exact q5, ?_⟩
      rw [hcut]
      have hS := drop_range S
      have := g12.trans q6 (by omega)
      rw [List.length_cons] at this
      show Raised S v _ ((1 + S.drop) * (((leaves D keepC t f (p :: ps) (if keepC l then hist ++ [l] else hist) p.left.length p.clip rest).length : Int) - ps.length) + (1 + S.drop))
      rw [show ∀ a b : Int, (1 + S.drop) * (a - b) + (1 + S.drop) = (1 + S.drop) * (a - (b + 1)) + (1 + S.drop) + (1 + S.drop) by
        intro a b; rcases drop_cases S with e | e <;> rw [e] <;> omega]
      exact this
    · have hx : (c, r.err, s.world) = x := by
        have : ∀ e : RLErr, e ≠ .nil → (match e with
          | .nil => readLines E keep m (if keep r.text then c.add r.text else c) s.world
          | err => pure (c, err, s.world)) = Except.ok x → (c, e, s.world) = x := by
          intro e h1 h2
          cases e with
          | nil => exact absurd rfl h1
          | _ => injection h2
        exact this _ hn hx
      subst hx
      have hlv : leaves D keepC t (f + 1) ps hist n clip ks = ps := by
        rw [leaves]
        have hans := textbook_result h.setting hrl
        rw [← oneLine_textbook] at hans
        generalize oneLine { D with history := hist } t n clip ks = y at hans
        obtain ⟨a, p, rest⟩ := y
        cases a with
        | entered l => cases hans; exact absurd rfl hn
        | _ => rfl
      rw [hlv]
      obtain ⟨o, u, a1, a2, a3, a4, a5, a6, a7, a8, a9, -⟩ := call_end h hC hl hlf hrl he
      have hur : u.row < u.height := by rw [a3.row, a3.height]; exact base_row S hv
      have hl1 : Raised S v u S.drop := base_raised S hv a3
      have hl2 : Lifted u (v.run adv (bytesOf E.cfg o)) 1 := by
        intro k hk
        rw [a4, a5]
        exact newline_lifted hur k hk
      have hS := drop_range S
      have hl3 : Raised S v _ (1 + S.drop) := hl1.trans hl2.raised hS.1
      exact ⟨o, a1, a7, a6, by rw [a5, a9]; exact newline_row u hur, by
        rw [show (2 : Int) + S.drop = 1 + S.drop + 1 by omega]; exact hT.lift hl3 (by decide), by
        rw [Int.sub_self, Int.mul_zero, Int.zero_add]; exact hl3⟩

/-- The columns there were for a line at some time: the width less the prompt and three. -/
def Spec.roomsOf (S : Sign) (C : Cfg) (w : World) (room : Int) : Prop :=
  room + (S.columns C + 3) = w.termWidth ∨ .resize (room + (S.columns C + 3)) ∈ w.input

theorem roomsOf_all {C : Cfg} : ∀ x, x = w.termWidth ∨ .resize x ∈ w.input → roomsOf S C w (x - S.columns C - 3) := by
  intro x hx
  unfold roomsOf
  rw [show x - S.columns C - 3 + (S.columns C + 3) = x by omega]
  exact hx

/-- **Whenever the program waits for a key**, the row of the cursor shows the page the textbook's program has come to after
the keys that were read; two rows above it and so on stand the lines that were entered; and above them, a row in between,
what was at the cursor and above it before the program. -/
theorem C82_partial {keep : Bytes → Bool} {keepC : List Char → Bool} (hkeep : ∀ l, keep (utf8 l) = keepC l) (hlf : E.lineFeed = none)
    (h : PlainDesk { E with history := [] } w { D with history := [] } t n clip ks)
    (hC : Console S { E with history := [] } w { D with history := [] } t clip ks adv v) (hl : ∀ k ∈ ks, D.verb k ≠ .redraw)
    (hv : v.row < v.height) {s : St} (ha : Amid E keep {} w s) (hn : noResize s.input ≠ []) :
    ∃ ps p r o hint, Opened D keepC t [] [] n clip ks ps p r ∧ keysIn s.input = r.map utf8 ∧ s.out = w.out ++ o ∧
      ShowsPage S E.cfg adv (v.run adv (bytesOf E.cfg o)) (s.termWidth - S.columns E.cfg - 3) p hint ∧
      Transcript S E.cfg adv (roomsOf S E.cfg w) (v.run adv (bytesOf E.cfg o)) (1 + S.drop) ps ∧
      Raised S v (v.run adv (bytesOf E.cfg o)) ((1 + S.drop) * ps.length + S.drop) := by
  obtain ⟨ps, p, r, o, hint, h1, h2, h3, h4, h5, h6⟩ := amid_transcript (rooms := roomsOf S E.cfg w) (ps := []) hkeep hlf ha hn h hC hl hv roomsOf_all trivial
  exact ⟨ps, p, r, o, hint, h1, h2, h3, h4, h5, by rw [show ((([] : List Page).length : Nat) : Int) = 0 from rfl, Int.sub_zero] at h6; exact h6⟩

/-- **When the program has ended** with Ctrl-C or Ctrl-D: the cursor at the beginning of a row, the row of the last call
above it, then the lines that were entered, then what was there before. -/
theorem C82_end_partial {keep : Bytes → Bool} {keepC : List Char → Bool} (hkeep : ∀ l, keep (utf8 l) = keepC l) (hlf : E.lineFeed = none)
    (h : PlainDesk { E with history := [] } w { D with history := [] } t n clip ks)
    (hC : Console S { E with history := [] } w { D with history := [] } t clip ks adv v) (hl : ∀ k ∈ ks, D.verb k ≠ .redraw)
    (hv : v.row < v.height) {x : Container × RLErr × World} (hx : program E keep w = .ok x) (he : ∀ e, x.2.1 ≠ .tty e) :
    ∃ o, x.2.2.out = w.out ++ o ∧ (v.run adv (bytesOf E.cfg o)).mode = .ground ∧ (v.run adv (bytesOf E.cfg o)).col = 0 ∧
      Transcript S E.cfg adv (roomsOf S E.cfg w) (v.run adv (bytesOf E.cfg o)) (2 + S.drop) (leaves D keepC t (ks.length + 1) [] [] n clip ks) ∧
      Raised S v (v.run adv (bytesOf E.cfg o)) ((1 + S.drop) * (leaves D keepC t (ks.length + 1) [] [] n clip ks).length + (1 + S.drop)) := by
  obtain ⟨o, h1, h2, h3, -, h5, h6⟩ := readLines_transcript (rooms := roomsOf S E.cfg w) (c := {}) (ps := []) hkeep hlf (w.input.length + 1) h hC hl hv roomsOf_all trivial
    (Nat.lt_succ_self _) hx he
  exact ⟨o, h1, h2, h3, h5, by rw [show ((([] : List Page).length : Nat) : Int) = 0 from rfl, Int.sub_zero] at h6; exact h6⟩

/-- **Every page** the textbook's program comes to before a key is shown so at some moment of the program. -/
theorem opened_amid {keep : Bytes → Bool} {keepC : List Char → Bool} (hkeep : ∀ l, keep (utf8 l) = keepC l) {hist : List (List Char)}
    {ps ps' : List Page} {p : Page} {r : List (List Char)} (ho : Opened D keepC t ps hist n clip ks ps' p r) :
    ∀ {c : Container} {w : World}, PlainDesk { E with history := c.buffer } w { D with history := hist } t n clip ks →
      ∃ s, Amid E keep c w s ∧ Upcoming s.input r ∧ s.text = utf8 p.text ∧ s.cursor = (p.left.length : Int) := by
  induction ho with
  | here ht =>
    intro c w h
    obtain ⟨s, h1, h2, h3⟩ := turned_reached h.setting
      (fails_there h.setting (h.noCompletion) h.modest) ht
    exact ⟨s, .here h1, h3, by rw [← h2.text]; exact St.text_eq s, h2.cursor⟩
  | @next ps h n clip ks l q rest ps' p r g1 _ ih =>
    intro c w hu
    rcases C78_bound_partial hu with ⟨s, res, h1, h2⟩ | ⟨-, h2⟩
    · have hn : res.err = .nil := by
        rw [← oneLine_textbook, g1] at h2
        cases h2
        rfl
      obtain ⟨l', p', rest', k1, k2, k3, k4, k5, k6, k7, k8⟩ := line_entered hu.setting h1 hn
      rw [g1] at k1
      injection k1 with k1 k1'
      injection k1 with k1
      injection k1' with k1' k1''
      subst k1 k1' k1''
      have hb : (if keep res.text then c.add res.text else c).buffer = if keepC l then c.buffer ++ [res.text] else c.buffer := by
        rw [k2, hkeep]
        split <;> rfl
      obtain ⟨s', q1, q2⟩ := ih (c := if keep res.text then c.add res.text else c) (w := s.world)
        (by rw [hb]; exact desk_next (keep := keepC) hu h1 hn k2 k3 k4 k5 k7)
      exact ⟨s', .next h1 hn q1, q2⟩
    · rw [← oneLine_textbook, g1] at h2
      cases h2

theorem C82_pages_partial {keep : Bytes → Bool} {keepC : List Char → Bool} (hkeep : ∀ l, keep (utf8 l) = keepC l)
    (h : PlainDesk { E with history := [] } w { D with history := [] } t n clip ks) {ps : List Page} {p : Page} {k : List Char}
    {r : List (List Char)} (ho : Opened D keepC t [] [] n clip ks ps p (k :: r)) :
    ∃ s, Amid E keep {} w s ∧ keysIn s.input = (k :: r).map utf8 ∧ s.text = utf8 p.text ∧ s.cursor = (p.left.length : Int) := by
  obtain ⟨s, h1, h2, h3⟩ := opened_amid (E := E) (c := {}) hkeep ho h
  exact ⟨s, h1, h2.keys, h3⟩

/-- The pages of the transcript are the lines of the history, and those that were not kept. -/
theorem leaves_history {keepC : List Char → Bool} (f : Nat) : ∀ {ps : List Page} {hist : List (List Char)} {n : Nat} {clip : Option (List Char)}
    {ks : List (List Char)}, ∃ qs, leaves D keepC t f ps hist n clip ks = qs ++ ps ∧
      (notebook D keepC t f hist n clip ks).1 = hist ++ (qs.reverse.map Page.text).filter keepC := by
  induction f with
  | zero => intro ps hist n clip ks; exact ⟨[], rfl, by simp [notebook]⟩
  | succ f ih =>
    intro ps hist n clip ks
    rw [leaves, notebook]
    have hp : ∀ l p rest, oneLine { D with history := hist } t n clip ks = (.entered l, p, rest) → l = p.text :=
      fun l p rest he => plays_entered he
    generalize oneLine { D with history := hist } t n clip ks = o at hp
    obtain ⟨a, p, rest⟩ := o
    cases a with
    | entered l =>
      obtain ⟨qs, h1, h2⟩ := ih (ps := p :: ps) (hist := if keepC l then hist ++ [l] else hist) (n := p.left.length) (clip := p.clip) (ks := rest)
      refine ⟨qs ++ [p], by rw [List.append_assoc]; exact h1, ?_⟩
      show (notebook D keepC t f (if keepC l then hist ++ [l] else hist) p.left.length p.clip rest).1 = _
      have e := hp l p rest rfl
      subst e
      rw [h2]
      by_cases hk : keepC p.text = true
      · simp [hk]
      · simp [hk]
    | _ => exact ⟨[], rfl, by simp⟩

/-- **The history is on the screen**: what a program keeps is what the transcript shows, less the lines it does not keep. -/
theorem C82_history_partial {keep : Bytes → Bool} {keepC : List Char → Bool} (hkeep : ∀ l, keep (utf8 l) = keepC l)
    (h : PlainDesk { E with history := [] } w { D with history := [] } t n clip ks) {x : Container × RLErr × World}
    (hx : program E keep w = .ok x) :
    x.1.buffer = (((leaves D keepC t (ks.length + 1) [] [] n clip ks).reverse.map Page.text).filter keepC).map utf8 := by
  rcases C79_partial hkeep h with ⟨y, h1, h2, -⟩ | ⟨⟨y, h1⟩, -⟩
  · rw [h1] at hx
    cases hx
    obtain ⟨qs, e1, e2⟩ := leaves_history (D := D) (t := t) (keepC := keepC) (ks.length + 1) (ps := []) (hist := []) (n := n) (clip := clip) (ks := ks)
    rw [h2, e2, e1]
    simp
  · rw [h1] at hx
    cases hx

section
open Example

/-- The last row of a terminal of four rows, with a `$` at its beginning. -/
def fourRows : Vt := { width := 80, height := 4, row := 3, col := 1, cells := fun y x => if y = 3 ∧ x = 0 then some (0x24, 0) else none }

/-- Two lines, the second one fetched from the history and made longer, then Ctrl-D. -/
def twoLines : List (List Char) := ["世", "\r", "\x10", "!", "\x02", "\r", "\x04"].map String.toList

def allRows (adv : Rune → Int) (C : Cfg) (o : List Tok) : List (List Sight) :=
  let v := fourRows.run adv (bytesOf C o)
  (List.range 7).map fun (k : Nat) => (List.range 6).map fun (i : Nat) => v.cells (v.row - k) i

theorem twoLines_ready : UsualDesk { env table with history := [] } { input := twoLines.map fun k => .key (utf8 k) } { emptyDesk with history := [] } [] 0 none twoLines ∧
    Console usualSign { env table with history := [] } { input := twoLines.map fun k => .key (utf8 k) } { emptyDesk with history := [] } [] none twoLines (plainColumns table) fourRows := by
  have hu := quiet_usual (W := 80) (by decide) twoLines (by decide +kernel) (by decide +kernel) (by decide +kernel)
  have h := shown_console (ks := []) (evs := []) (by simp) (by simp) (by simp)
  refine ⟨{ hu with history := rfl, default := by decide +kernel, plain := ?_ }, ?_⟩
  · rintro u (rfl | hu | hu) c hc
    · cases hc
    · cases hu
    · cases hu
  · refine ⟨rfl, .inl rfl, .inl rfl, table_agrees, h.ascii, h.width, h.zwj, ?_, fun hx => absurd hx (by decide +kernel), fun _ => within_newest rfl _, rfl, by decide,
      usual_sign table_agrees (fun r h1 h2 => table_plain (Or.inl (by omega)) (by omega)) rfl (by decide), .inl rfl, Int.le_refl 80, by intro x hx; simp at hx⟩
    intro k hk c hc
    have : ∀ k ∈ twoLines, ∀ c ∈ k.head?, (c.toNat < 0x7F ∨ 0x9F < c.toNat) ∧ c.toNat ≠ 9 := by decide +kernel
    exact .inr (table_plain (this k hk c hc).1 (this k hk c hc).2)

/-- The lines that were entered, the last one first, with the places of the cursor. -/
example : ((leaves emptyDesk notBlank [] 8 [] [] 0 none twoLines).map fun p => (p.left.asString, p.right.asString)) = [("世", "!"), ("世", "")] := by
  decide +kernel

/-- The terminal in the end, from the cursor upwards: the row of the last call, `> 世!`, `> 世`, and the `$` that was there. -/
example : (match program (env table) (fun b => (runesOf b).any fun r => decide (r ≠ 0x20)) { input := twoLines.map fun k => .key (utf8 k) } with
    | .ok x => allRows (plainColumns table) table x.2.2.out
    | .error _ => []) =
    [[none, none, none, none, none, none],
     [some (0x3E, 0), some (0x20, 0), none, none, none, none],
     [none, none, none, none, none, none],
     [some (0x3E, 0), some (0x20, 0), some (0x4E16, 0), some (0x4E16, 1), some (0x21, 0), none],
     [none, none, none, none, none, none],
     [some (0x3E, 0), some (0x20, 0), some (0x4E16, 0), some (0x4E16, 1), none, none],
     [some (0x24, 0), none, none, none, none, none]] := by decide +kernel

end

end Readline
