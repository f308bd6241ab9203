import Verif.Model.IO
import Mathlib.Data.List.Basic
import Mathlib.Data.List.GetD
import Mathlib.Tactic.Linarith
import Mathlib.Tactic.Ring

/-! C42, C43: what is written is read back, and what reading does on other input. -/
namespace TMV.IO

variable {T : Type}

/-! ### Specification -/

/-- Only white space. -/
def AllWs (w : Text) : Prop := ∀ c ∈ w, ws c = true

/-- The text is at its end or goes on with a character that cannot belong to a number. -/
def EndsNum (delim : Char → Bool) (t : Text) : Prop := t = [] ∨ ∃ c t', t = c :: t' ∧ delim c = true

/-- A nonempty separator that starts with such a character. -/
def SepNum (delim : Char → Bool) (t : Text) : Prop := ∃ c t', t = c :: t' ∧ delim c = true

/-- What is assumed of the standard library's `<<` and `>>` for the value type: a printed value is not empty and does
not start with white space, and parsing it, when followed by a delimiter or the end of the stream, gives `rd x` (the
value rounded to the precision of the style; `rd x = x` if nothing is lost) and consumes exactly what was printed. -/
structure Codec.Law (C : Codec T) (delim : Char → Bool) (rd : T → T) : Prop where
  start : ∀ x, ∃ c t, C.show_ x = c :: t ∧ ws c = false
  back : ∀ x rest, EndsNum delim rest → C.parse (C.show_ x ++ rest) = some (rd x, rest)

/-- Parsing consumes a prefix. -/
def Codec.Suffix (C : Codec T) : Prop := ∀ t x t', C.parse t = some (x, t') → ∃ p, t = p ++ t'

/-! ### Integers -/

theorem showNat_append (n : Nat) (hn : 10 ≤ n) : showNat n = showNat (n / 10) ++ [Char.ofNat (48 + n % 10)] := by
  rw [showNat, dif_neg (by omega)]

theorem digit_char : ∀ d < 10, (Char.ofNat (48 + d)).isDigit = true ∧ (Char.ofNat (48 + d)).toNat = 48 + d ∧
    ws (Char.ofNat (48 + d)) = false ∧ Char.ofNat (48 + d) ≠ '-' := by decide

theorem showNat_ne : ∀ n, ∃ c t, showNat n = c :: t ∧ c.isDigit = true ∧ ws c = false ∧ c ≠ '-' := by
  intro n
  induction n using Nat.strong_induction_on with
  | _ n ih =>
    by_cases h : n < 10
    · rw [showNat, dif_pos h]
      exact ⟨_, [], rfl, (digit_char n h).1, (digit_char n h).2.2.1, (digit_char n h).2.2.2⟩
    · obtain ⟨c, t, h1, h2, h3, h4⟩ := ih (n / 10) (by omega)
      exact ⟨c, t ++ [Char.ofNat (48 + n % 10)], by rw [showNat_append n (by omega), h1]; rfl, h2, h3, h4⟩

theorem parseDigits_showNat (n : Nat) : ∀ (a : Nat) (rest : Text),
    ∃ k, parseDigits a (showNat n ++ rest) = parseDigits (a * 10 ^ k + n) rest := by
  induction n using Nat.strong_induction_on with
  | _ n ih =>
    intro a rest
    by_cases h : n < 10
    · refine ⟨1, ?_⟩
      rw [showNat, dif_pos h, List.singleton_append, parseDigits, if_pos (digit_char n h).1, (digit_char n h).2.1]
      congr 1; omega
    · obtain ⟨k, hk⟩ := ih (n / 10) (by omega) a (Char.ofNat (48 + n % 10) :: rest)
      refine ⟨k + 1, ?_⟩
      have hd := digit_char (n % 10) (by omega)
      rw [showNat_append n (by omega), List.append_assoc, List.singleton_append, hk, parseDigits, if_pos hd.1, hd.2.1]
      congr 1
      have : 10 * (a * 10 ^ k) = a * 10 ^ (k + 1) := by ring
      omega

/-- Anything but a digit ends an integer. -/
def nonDigit (c : Char) : Bool := !c.isDigit

theorem parseDigits_end (a : Nat) (rest : Text) (h : EndsNum nonDigit rest) : parseDigits a rest = (a, rest) := by
  rcases h with rfl | ⟨c, t, rfl, hc⟩
  · rfl
  · rw [parseDigits, if_neg (by simpa [nonDigit] using hc)]

/-- Integers are read back exactly. -/
theorem intCodec_law : intCodec.Law nonDigit id where
  start := by
    intro x
    obtain ⟨c, t, h1, h2, h3, h4⟩ := showNat_ne x.natAbs
    by_cases hx : x < 0
    · exact ⟨'-', showNat x.natAbs, by simp only [intCodec]; rw [if_pos hx], by decide⟩
    · exact ⟨c, t, by simp only [intCodec]; rw [if_neg hx, h1], h3⟩
  back := by
    intro x rest hr
    obtain ⟨c, t, h1, h2, h3, h4⟩ := showNat_ne x.natAbs
    obtain ⟨k, hk⟩ := parseDigits_showNat x.natAbs 0 rest
    rw [Nat.zero_mul, Nat.zero_add, parseDigits_end _ _ hr] at hk
    by_cases hx : x < 0
    · simp only [intCodec]
      rw [if_pos hx]
      rw [h1] at hk ⊢
      simp only [List.cons_append, if_true, if_pos h2, id] at hk ⊢
      rw [hk]
      simp only [Option.some.injEq, Prod.mk.injEq, and_true]
      omega
    · simp only [intCodec]
      rw [if_neg hx]
      rw [h1] at hk ⊢
      simp only [List.cons_append, if_neg h4, if_pos h2, id] at hk ⊢
      rw [hk]
      simp only [Option.some.injEq, Prod.mk.injEq, and_true]
      omega

theorem parseDigits_suffix (t : Text) : ∀ a, ∃ p, t = p ++ (parseDigits a t).2 := by
  induction t with
  | nil => intro a; exact ⟨[], rfl⟩
  | cons c t ih =>
    intro a
    rw [parseDigits]
    by_cases hc : c.isDigit = true
    · rw [if_pos hc]
      obtain ⟨p, hp⟩ := ih (10 * a + (c.toNat - 48))
      exact ⟨c :: p, by rw [List.cons_append, ← hp]⟩
    · rw [if_neg hc]; exact ⟨[], rfl⟩

theorem intCodec_suffix : intCodec.Suffix := by
  intro t x t' h
  match t with
  | [] => simp [intCodec] at h
  | c :: t =>
    simp only [intCodec] at h
    by_cases hc : c = '-'
    · rw [if_pos hc] at h
      match t with
      | [] => simp at h
      | d :: t =>
        simp only at h
        by_cases hd : d.isDigit = true
        · rw [if_pos hd] at h
          simp only [Option.some.injEq, Prod.mk.injEq] at h
          obtain ⟨p, hp⟩ := parseDigits_suffix (d :: t) 0
          exact ⟨c :: p, by rw [← h.2, List.cons_append, ← hp]⟩
        · rw [if_neg hd] at h; simp at h
    · rw [if_neg hc] at h
      by_cases hd : c.isDigit = true
      · rw [if_pos hd] at h
        simp only [Option.some.injEq, Prod.mk.injEq] at h
        obtain ⟨p, hp⟩ := parseDigits_suffix (c :: t) 0
        exact ⟨p, by rw [← h.2, ← hp]⟩
      · rw [if_neg hd] at h; simp at h

/-! ### Skipping white space -/

/-- The outcome given by `skipAux` is what running the loop of `skipWhiteSpace` for more and more rounds shows:
it stops after some number of rounds, or does not stop in any number of rounds. -/
theorem skip_refines (t : Text) (c : Option Char) (hc : ∀ x, c = some x → ws x = true) :
    match skipAux c.isSome t with
    | .ok _ t' => ∃ n, skipFuel n t c = some (some t')
    | .ub => ∃ n, skipFuel n t c = some none
    | .hang => ∀ n, skipFuel n t c = none
    | .err => False := by
  induction t generalizing c with
  | nil =>
    match c with
    | none => exact ⟨1, rfl⟩
    | some x =>
      simp only [Option.isSome_some, skipAux]
      intro n
      induction n with
      | zero => rfl
      | succ n ih => simp only [skipFuel, getC, hc x rfl, if_true, ih]
  | cons y t ih =>
    have hx : ∀ b, skipAux b (y :: t) = if ws y then skipAux true t else .ok () (y :: t) := by
      intro b; cases b <;> rfl
    rw [hx]
    by_cases hy : ws y = true
    · rw [if_pos hy]
      have := ih (some y) (by intro x hx; cases hx; exact hy)
      simp only [Option.isSome_some] at this
      have hs : ∀ n, skipFuel (n + 1) (y :: t) c = skipFuel n t (some y) := by
        intro n; simp only [skipFuel, getC, hy, if_true]
      revert this
      cases skipAux true t with
      | ok a t' => rintro ⟨n, hn⟩; exact ⟨n + 1, by rw [hs, hn]⟩
      | err => exact id
      | ub => rintro ⟨n, hn⟩; exact ⟨n + 1, by rw [hs, hn]⟩
      | hang =>
        intro h n
        match n with
        | 0 => rfl
        | n + 1 => rw [hs, h]
    · rw [if_neg hy]
      exact ⟨1, by simp [skipFuel, getC, hy]⟩

theorem skipAux_ws (w : Text) (hw : AllWs w) : ∀ b t, skipAux b (w ++ t) = skipAux (b || !w.isEmpty) t := by
  induction w with
  | nil => intro b t; simp
  | cons x w ih =>
    intro b t
    have hx : ws x = true := hw x (List.mem_cons_self)
    have h2 := ih (fun c hc => hw c (List.mem_cons_of_mem _ hc)) true t
    cases b <;> simp only [List.cons_append, skipAux, hx, if_true] <;> rw [h2] <;> simp

theorem skip_word (w t : Text) (c : Char) (hw : AllWs w) (hc : ws c = false) :
    skip (w ++ c :: t) = .ok () (c :: t) := by
  rw [skip, skipAux_ws w hw]
  cases (false || !w.isEmpty) <;> simp [skipAux, hc]

/-- Every text is white space followed by nothing or by something that does not start with white space. -/
theorem ws_split (t : Text) : ∃ w u, t = w ++ u ∧ AllWs w ∧ (u = [] ∨ ∃ c u', u = c :: u' ∧ ws c = false) := by
  induction t with
  | nil => exact ⟨[], [], rfl, by simp [AllWs], Or.inl rfl⟩
  | cons c t ih =>
    by_cases hc : ws c = true
    · obtain ⟨w, u, rfl, hw, hu⟩ := ih
      refine ⟨c :: w, u, rfl, ?_, hu⟩
      intro x hx
      rcases List.mem_cons.1 hx with rfl | hx
      · exact hc
      · exact hw x hx
    · exact ⟨[], c :: t, rfl, by simp [AllWs], Or.inr ⟨c, t, rfl, by simpa using hc⟩⟩

/-- `skipWhiteSpace` succeeds exactly when there is something else than white space, and stands on it. -/
theorem skip_ok_iff (t u : Text) : skip t = .ok () u ↔
    ∃ w c u', AllWs w ∧ u = c :: u' ∧ ws c = false ∧ t = w ++ u := by
  constructor
  · intro h
    obtain ⟨w, v, rfl, hw, hv⟩ := ws_split t
    rcases hv with rfl | ⟨c, u', rfl, hc⟩
    · exfalso
      rw [skip, skipAux_ws w hw] at h
      revert h
      cases (false || !w.isEmpty) <;> simp [skipAux]
    · rw [skip_word w u' c hw hc] at h
      simp only [Out.ok.injEq, true_and] at h
      exact ⟨w, c, u', hw, h.symm, hc, by rw [h]⟩
  · rintro ⟨w, c, u', hw, rfl, hc, rfl⟩
    exact skip_word w u' c hw hc

/-- `skipWhiteSpace` never returns exactly when what is left of the stream is nonempty and all white space. -/
theorem skip_hang_iff (t : Text) : skip t = .hang ↔ t ≠ [] ∧ AllWs t := by
  obtain ⟨w, v, rfl, hw, hv⟩ := ws_split t
  rcases hv with rfl | ⟨c, u', rfl, hc⟩
  · rw [skip, skipAux_ws w hw]
    cases w with
    | nil => simp [skipAux]
    | cons x w => simpa [skipAux] using hw
  · rw [skip_word w u' c hw hc]
    simp only [reduceCtorEq, false_iff, not_and]
    intro _ hall
    have := hall c (by simp)
    rw [hc] at this; cases this

theorem skip_err (t : Text) : skip t ≠ .err := by
  obtain ⟨w, v, rfl, hw, hv⟩ := ws_split t
  rcases hv with rfl | ⟨c, u', rfl, hc⟩
  · rw [skip, skipAux_ws w hw]
    cases (false || !w.isEmpty) <;> simp [skipAux]
  · rw [skip_word w u' c hw hc]; simp

/-! ### Markers -/

theorem dropWhile_split (p : Char → Bool) (t : Text) : ∃ a, t = a ++ t.dropWhile p ∧ (∀ c ∈ a, p c = true) := by
  refine ⟨t.takeWhile p, (List.takeWhile_append_dropWhile).symm, ?_⟩
  intro c hc
  exact List.all_eq_true.1 (List.all_takeWhile) c hc

theorem dropWhile_head (p : Char → Bool) (t : Text) (c : Char) (u : Text) (h : t.dropWhile p = c :: u) :
    p c = false := by
  induction t with
  | nil => simp at h
  | cons x t ih =>
    rw [List.dropWhile_cons] at h
    by_cases hx : p x = true
    · rw [if_pos hx] at h; exact ih h
    · rw [if_neg hx] at h
      simp only [List.cons.injEq] at h
      rw [← h.1]; simpa using hx

/-- `trim` removes white space at both ends. -/
theorem trim_spec (t : Text) : ∃ a b, AllWs a ∧ AllWs b ∧ t = a ++ trim t ++ b ∧
    (trim t = [] ∨ ∃ c u, trim t = c :: u ∧ ws c = false) := by
  obtain ⟨a, ha, hwa⟩ := dropWhile_split ws t
  obtain ⟨b, hb, hwb⟩ := dropWhile_split ws (t.dropWhile ws).reverse
  have hb' : t.dropWhile ws = trim t ++ b.reverse := by
    have := congrArg List.reverse hb
    rw [List.reverse_reverse, List.reverse_append] at this
    exact this
  refine ⟨a, b.reverse, hwa, fun c hc => hwb c (by simpa using hc), ?_, ?_⟩
  · rw [List.append_assoc, ← hb', ← ha]
  · cases ht : trim t with
    | nil => exact Or.inl rfl
    | cons c u =>
      rw [ht] at hb'
      exact Or.inr ⟨c, u, rfl, dropWhile_head ws t c _ hb'⟩

theorem AllWs.append {a b : Text} (ha : AllWs a) (hb : AllWs b) : AllWs (a ++ b) := by
  intro c hc
  rcases List.mem_append.1 hc with h | h
  · exact ha c h
  · exact hb c h

theorem readStr_ne {str : Text} (h0 : str ≠ []) (t : Text) : readStr str t = match skip t with
    | .ok _ t =>
      if t.take str.length ++ List.replicate (str.length - t.length) ' ' ≠ str then .err
      else if t.length < str.length then .err
      else .ok () (t.drop str.length)
    | .err => .err
    | .hang => .hang
    | .ub => .ub := by
  unfold readStr
  rw [if_neg h0, Rd.bind]
  cases skip t <;> rfl

/-- `readStr(str)` for a marker without surrounding white space succeeds exactly when the stream has, after white
space, that marker; it then stands right behind it. -/
theorem readStr_ok_iff (str t rest : Text) (hs : str = [] ∨ ∃ c u, str = c :: u ∧ ws c = false) :
    readStr str t = .ok () rest ↔
      (str = [] ∧ t = rest) ∨ (str ≠ [] ∧ ∃ w, AllWs w ∧ t = w ++ str ++ rest) := by
  by_cases h0 : str = []
  · subst h0
    simp [readStr, Rd.pure]
  · rcases hs with h | ⟨c, u, hcu, hc⟩
    · exact absurd h h0
    rw [readStr_ne h0]
    simp only [h0, false_and, false_or, ne_eq, not_false_eq_true, true_and]
    constructor
    · intro h
      cases hsk : skip t with
      | err => rw [hsk] at h; simp at h
      | hang => rw [hsk] at h; simp at h
      | ub => rw [hsk] at h; simp at h
      | ok a v =>
        rw [hsk] at h
        simp only at h
        obtain ⟨w, c', u', hw, hv, -, ht⟩ := (skip_ok_iff t v).1 hsk
        by_cases hl : v.length < str.length
        · rw [if_pos hl] at h
          split at h <;> simp at h
        · rw [if_neg hl, show str.length - v.length = 0 by omega] at h
          simp only [List.replicate_zero, List.append_nil] at h
          split at h
          · simp at h
          · rename_i hg
            simp only [ne_eq, Decidable.not_not] at hg
            simp only [Out.ok.injEq, true_and] at h
            refine ⟨w, hw, ?_⟩
            rw [ht, List.append_assoc, ← h]
            conv_rhs => rw [← hg]
            rw [← hg]
            simp
    · rintro ⟨w, hw, rfl⟩
      rw [hcu, List.append_assoc, List.cons_append, skip_word w (u ++ rest) c hw hc]
      simp

theorem readMark_ok_iff (m t rest : Text) : readMark m t = .ok () rest ↔
    (trim m = [] ∧ t = rest) ∨ (trim m ≠ [] ∧ ∃ w, AllWs w ∧ t = w ++ trim m ++ rest) :=
  readStr_ok_iff _ _ _ (trim_spec m).choose_spec.choose_spec.2.2.2

/-! ### Composition -/

/-- Reading what was written: after any white space, `r` consumes `txt` up to trailing white space and gives `a`,
when the stream goes on with `rest`. -/
def Reads {α : Type} (r : Rd α) (txt : Text) (a : α) (rest : Text) : Prop :=
  ∀ w, AllWs w → ∃ w', AllWs w' ∧ r (w ++ txt ++ rest) = .ok a (w' ++ rest)

theorem Reads.pure {α : Type} (a : α) (rest : Text) : Reads (Rd.pure a) [] a rest := fun w hw => ⟨w, hw, by simp [Rd.pure]⟩

theorem Reads.bind {α β : Type} {r : Rd α} {f : α → Rd β} {t1 t2 : Text} {a : α} {b : β} {rest : Text}
    (h1 : Reads r t1 a (t2 ++ rest)) (h2 : Reads (f a) t2 b rest) : Reads (r.bind f) (t1 ++ t2) b rest := by
  intro w hw
  obtain ⟨w1, hw1, e1⟩ := h1 w hw
  obtain ⟨w2, hw2, e2⟩ := h2 w1 hw1
  refine ⟨w2, hw2, ?_⟩
  simp only [Rd.bind]
  rw [show w ++ (t1 ++ t2) ++ rest = w ++ t1 ++ (t2 ++ rest) by simp [List.append_assoc], e1]
  simp only
  rw [← List.append_assoc, e2]

theorem Reads.map {α β : Type} {r : Rd α} {g : α → β} {t1 : Text} {a : α} {rest : Text}
    (h1 : Reads r t1 a rest) : Reads (r.bind fun x => Rd.pure (g x)) t1 (g a) rest := by
  have := Reads.bind (t2 := []) (f := fun x => Rd.pure (g x)) (b := g a) (rest := rest) (by simpa using h1)
    (Reads.pure _ _)
  simpa using this

theorem reads_mark (m rest : Text) : Reads (readMark m) m () rest := by
  intro w hw
  obtain ⟨a, b, ha, hb, hm, ht⟩ := trim_spec m
  by_cases h0 : trim m = []
  · refine ⟨w ++ m, ?_, ?_⟩
    · rw [hm, h0, List.append_nil]
      exact hw.append (ha.append hb)
    · exact (readMark_ok_iff _ _ _).2 (Or.inl ⟨h0, rfl⟩)
  · refine ⟨b, hb, (readMark_ok_iff _ _ _).2 (Or.inr ⟨h0, w ++ a, hw.append ha, ?_⟩)⟩
    conv_lhs => rw [hm]
    simp [List.append_assoc]

theorem reads_value {C : Codec T} {delim : Char → Bool} {rd : T → T} (L : C.Law delim rd) (x : T) (rest : Text)
    (hr : EndsNum delim rest) : Reads (readValue C) (C.show_ x) (rd x) rest := by
  intro w hw
  obtain ⟨c, t, hs, hc⟩ := L.start x
  refine ⟨[], by simp [AllWs], ?_⟩
  have hb := L.back x rest hr
  rw [hs] at hb ⊢
  simp only [readValue, Rd.bind]
  rw [List.append_assoc, List.cons_append, skip_word w _ c hw hc]
  simp only [← List.cons_append, hb, List.nil_append]

theorem SepNum.ends {delim : Char → Bool} {t : Text} (h : SepNum delim t) (u : Text) : EndsNum delim (t ++ u) := by
  obtain ⟨c, t', rfl, hc⟩ := h
  exact Or.inr ⟨c, t' ++ u, rfl, hc⟩

theorem reads_code (s : Style) (code rest : Text) (hc : trim code = code) :
    Reads (readCode s code) (wCode s code) () rest := by
  by_cases h : s.usecode = true
  · simp only [readCode, wCode, h, if_true]
    exact Reads.bind (by simpa [readMark, hc] using reads_mark code (s.space ++ rest)) (reads_mark s.space rest)
  · simp only [readCode, wCode, h]
    exact Reads.pure _ _

theorem reads_size (s : Style) (n n0 : Int) (rest : Text) (hsp : SepNum nonDigit s.space)
    (hn : s.writesize = false → n0 = n) : Reads (readSize s n0) (wSize s n) n rest := by
  by_cases h : s.writesize = true
  · simp only [readSize, wSize, h, if_true]
    refine Reads.bind (reads_value intCodec_law n (s.space ++ rest) (hsp.ends rest)) ?_
    exact Reads.map (g := fun _ => n) (reads_mark s.space rest)
  · simp only [readSize, wSize, h]
    rw [hn (by simpa using h)]
    exact Reads.pure _ _

theorem reads_simpleSize (s : Style) (n n0 : Int) (rest : Text) (hsp : SepNum nonDigit s.space)
    (hn : n0 = n) : Reads (readSimpleSize s n0) (wSimpleSize s n) n rest := by
  by_cases h : s.simplesize = true
  · simp only [readSimpleSize, wSimpleSize, h, if_true]
    exact reads_size s n n0 rest hsp (fun _ => hn)
  · simp only [readSimpleSize, wSimpleSize, h]
    rw [hn]; exact Reads.pure _ _

theorem reads_vals {s : Style} {C : Codec T} {delim : Char → Bool} {rd : T → T} (L : C.Law delim rd)
    (hsp : SepNum delim s.space) (xs : List T) : ∀ (first : Bool) (rest : Text), EndsNum delim rest →
    Reads (rVals s C first xs.length) (wVals s C first xs) (xs.map rd) rest := by
  induction xs with
  | nil => intro first rest _; exact Reads.pure _ _
  | cons x xs ih =>
    intro first rest hr
    simp only [List.length_cons, rVals, wVals]
    rw [List.append_assoc]
    refine Reads.bind (a := ()) ?_ (Reads.bind (a := rd x) (reads_value L x _ ?_) ?_)
    · cases first
      · exact reads_mark _ _
      · exact Reads.pure _ _
    · cases xs with
      | nil => simpa [wVals] using hr
      | cons y ys =>
        simp only [wVals, Bool.false_eq_true, if_false, List.append_assoc]
        exact hsp.ends _
    · exact Reads.map (g := fun l => rd x :: l) (ih false rest hr)

/-- The separators of a style keep numbers apart (both sizes and values). -/
structure Style.OK (s : Style) (delim : Char → Bool) : Prop where
  space : SepNum delim s.space
  spaceInt : SepNum nonDigit s.space

theorem endsNum_append {delim : Char → Bool} {a b : Text} (ha : EndsNum delim a) (hb : EndsNum delim b) :
    EndsNum delim (a ++ b) := by
  rcases ha with rfl | ⟨c, t, rfl, hc⟩
  · simpa using hb
  · exact Or.inr ⟨c, t ++ b, rfl, hc⟩

/-! ### C42: round trips -/

/-- Writing a vector and reading the text back with the same style, into a vector of any size if the style writes the
size (of the same size otherwise), gives the size and every element as the number format delivers it; only white
space of the text is left.  The text may be followed by anything that does not continue the last number. -/
theorem vector_roundtrip {s : Style} {C : Codec T} {delim : Char → Bool} {rd : T → T} (L : C.Law delim rd)
    (hs : s.OK delim) (xs : List T) (n0 : Int) (hn : s.writesize = false → n0 = xs.length) (rest : Text)
    (hr : EndsNum delim (s.rparen ++ rest)) :
    ∃ w, AllWs w ∧ readVector s C n0 (writeVector s C xs ++ rest) = .ok ((xs.length : Int), xs.map rd) (w ++ rest) := by
  have : Reads (readVector s C n0) (writeVector s C xs) ((xs.length : Int), xs.map rd) rest := by
    unfold readVector writeVector
    simp only [List.append_assoc]
    refine Reads.bind (reads_code s ['V'] _ (by decide)) (Reads.bind (reads_size s xs.length n0 _ hs.spaceInt hn)
      (Reads.bind (reads_mark _ _) (Reads.bind (a := xs.map rd) ?_ (Reads.map (g := fun _ => _) (reads_mark _ _)))))
    exact reads_vals L hs.space xs true _ hr
  obtain ⟨w, hw, h⟩ := this [] (by simp [AllWs])
  exact ⟨w, hw, by simpa using h⟩

/-- The same for a `VectorView`, which must already have the size. -/
theorem vectorView_roundtrip {s : Style} {C : Codec T} {delim : Char → Bool} {rd : T → T} (L : C.Law delim rd)
    (hs : s.OK delim) (xs : List T) (rest : Text) (hr : EndsNum delim (s.rparen ++ rest)) :
    ∃ w, AllWs w ∧
      readVectorView s C xs.length (writeVector s C xs ++ rest) = .ok ((xs.length : Int), xs.map rd) (w ++ rest) := by
  have : Reads (readVectorView s C xs.length) (writeVector s C xs) ((xs.length : Int), xs.map rd) rest := by
    unfold readVectorView writeVector
    simp only [List.append_assoc]
    refine Reads.bind (reads_code s ['V'] _ (by decide)) (Reads.bind (a := (xs.length : Int))
      (reads_size s xs.length _ _ hs.spaceInt (fun _ => rfl)) ?_)
    simp only [ne_eq, not_true, if_false]
    refine Reads.bind (reads_mark _ _) (Reads.bind (a := xs.map rd) ?_ (Reads.map (g := fun _ => _) (reads_mark _ _)))
    exact reads_vals L hs.space xs true _ hr
  obtain ⟨w, hw, h⟩ := this [] (by simp [AllWs])
  exact ⟨w, hw, by simpa using h⟩

theorem reads_rows {s : Style} {C : Codec T} {delim : Char → Bool} {rd : T → T} (L : C.Law delim rd)
    (hsp : SepNum delim s.space) (hre : SepNum delim (s.rparen ++ s.rowend)) (N : Nat) (rows : List (List T))
    (hrows : ∀ r ∈ rows, r.length = N) : ∀ (rest : Text), EndsNum delim (s.rparen ++ rest) →
    Reads (rRows s C N rows.length) (wRows s C rows) (rows.map (List.map rd)) rest := by
  induction rows with
  | nil => intro rest _; exact Reads.pure _ _
  | cons r rows ih =>
    intro rest hr
    have hl : r.length = N := hrows r (List.mem_cons_self)
    subst hl
    cases rows with
    | nil =>
      simp only [List.length_cons, List.length_nil, rRows, wRows, List.append_assoc]
      refine Reads.bind (reads_mark _ _) (Reads.bind (a := r.map rd) (reads_vals L hsp r true _ hr) ?_)
      intro w hw
      obtain ⟨w', hw', h⟩ := reads_mark s.rparen rest w hw
      rw [List.append_assoc] at h
      exact ⟨w', hw', by simp [Rd.bind, h, Rd.pure]⟩
    | cons r' rows =>
      have := ih (fun q hq => hrows q (List.mem_cons_of_mem _ hq)) rest hr
      simp only [List.length_cons, rRows, wRows, List.append_assoc, List.map_cons] at this ⊢
      refine Reads.bind (reads_mark _ _) (Reads.bind (a := r.map rd) (reads_vals L hsp r true _ ?_) ?_)
      · simp only [← List.append_assoc s.rparen]
        rw [List.append_assoc]
        exact hre.ends _
      · refine Reads.bind (reads_mark _ _) (Reads.bind (a := ()) ?_ (Reads.map (g := fun l => _ :: l) this))
        simp only [Nat.add_eq_zero_iff, one_ne_zero, and_false, if_false]
        exact reads_mark _ _

/-- Writing a matrix and reading the text back with the same style gives both sizes and every element. -/
theorem matrix_roundtrip {s : Style} {C : Codec T} {delim : Char → Bool} {rd : T → T} (L : C.Law delim rd)
    (hs : s.OK delim) (hre : SepNum delim (s.rparen ++ s.rowend)) (N : Nat) (rows : List (List T))
    (hrows : ∀ r ∈ rows, r.length = N) (M0 N0 : Int)
    (hn : s.writesize = false → M0 = rows.length ∧ N0 = N) (rest : Text)
    (hr : EndsNum delim (s.rparen ++ (s.final ++ rest))) :
    ∃ w, AllWs w ∧ readMatrix s C M0 N0 (writeMatrix s C N rows ++ rest) =
      .ok ((rows.length : Int), (N : Int), rows.map (List.map rd)) (w ++ rest) := by
  have : Reads (readMatrix s C M0 N0) (writeMatrix s C N rows)
      ((rows.length : Int), (N : Int), rows.map (List.map rd)) rest := by
    unfold readMatrix writeMatrix
    simp only [List.append_assoc]
    refine Reads.bind (reads_code s ['M'] _ (by decide))
      (Reads.bind (reads_size s rows.length M0 _ hs.spaceInt (fun h => (hn h).1))
      (Reads.bind (reads_size s N N0 _ hs.spaceInt (fun h => (hn h).2))
      (Reads.bind (reads_mark _ _) (Reads.bind (a := rows.map (List.map rd)) ?_
        (Reads.map (g := fun _ => _) (reads_mark _ _))))))
    exact reads_rows L hs.space hre N rows hrows _ hr
  obtain ⟨w, hw, h⟩ := this [] (by simp [AllWs])
  exact ⟨w, hw, by simpa using h⟩

theorem reads_diag [Zero T] [DecidableEq T] {s : Style} {C : Codec T} {delim : Char → Bool} {rd : T → T}
    (L : C.Law delim rd) (h0 : rd 0 = 0) (hsp : SepNum delim s.space) (hre : SepNum delim (s.rparen ++ s.rowend))
    (N : Nat) (row : Nat → List T)
    (hl : ∀ i, (row i).length = if s.usecompact then 1 else N)
    (hz : ∀ i, ∀ j, j ≠ (if s.usecompact then 0 else i) → (row i).getD j 0 = 0) :
    ∀ (k i : Nat) (rest : Text), EndsNum delim (s.rparen ++ rest) →
    Reads (rDiag s C N i k) (wRows s C ((List.range' i k).map row))
      ((List.range' i k).map fun i => ((row i).map rd).getD (if s.usecompact then 0 else i) 0) rest := by
  intro k
  induction k with
  | zero => intro i rest _; exact Reads.pure _ _
  | succ k ih =>
    intro i rest hr
    have hany : ((List.range ((row i).map rd).length).any fun j =>
        j != (if s.usecompact then 0 else i) && decide (((row i).map rd).getD j 0 ≠ 0)) = false := by
      rw [List.any_eq_false]
      intro j hj
      have hj' : j < (row i).length := by simpa using hj
      simp only [bne_iff_ne, ne_eq, Bool.and_eq_true, decide_eq_true_eq, not_and, Decidable.not_not]
      intro hne
      have h1 := hz i j hne
      rw [List.getD_eq_getElem _ _ hj'] at h1
      rw [List.getD_eq_getElem _ _ (by simpa using hj'), List.getElem_map, h1, h0]
    have hrow : ∀ rest, EndsNum delim rest → Reads (rVals s C true (if s.usecompact then 1 else N))
        (wVals s C true (row i)) ((row i).map rd) rest := by
      intro rest hr
      have := reads_vals L hsp (row i) true rest hr
      rwa [hl i] at this
    rw [rDiag, List.range'_succ, List.map_cons, List.map_cons]
    cases k with
    | zero =>
      simp only [List.range'_zero, List.map_nil, wRows, List.append_assoc]
      refine Reads.bind (reads_mark _ _) (Reads.bind (a := (row i).map rd) (hrow _ hr) ?_)
      simp only [hany, Bool.false_eq_true, if_false]
      intro w hw
      obtain ⟨w', hw', h⟩ := reads_mark s.rparen rest w hw
      rw [List.append_assoc] at h
      exact ⟨w', hw', by simp [Rd.bind, h, Rd.pure, rDiag]⟩
    | succ k =>
      have := ih (i + 1) rest hr
      rw [List.range'_succ, List.map_cons, List.map_cons] at this ⊢
      simp only [wRows, List.append_assoc]
      refine Reads.bind (reads_mark _ _) (Reads.bind (a := (row i).map rd) (hrow _ ?_) ?_)
      · simp only [← List.append_assoc s.rparen]
        rw [List.append_assoc]
        exact hre.ends _
      · simp only [hany, Bool.false_eq_true, if_false]
        refine Reads.bind (reads_mark _ _) (Reads.bind (a := ()) ?_ (Reads.map (g := fun l => _ :: l) this))
        simp only [Nat.add_eq_zero_iff, one_ne_zero, and_false, if_false]
        exact reads_mark _ _

/-- Writing a diagonal matrix and reading the text back, in a compact or a full style. -/
theorem diag_roundtrip [Zero T] [DecidableEq T] {s : Style} {C : Codec T} {delim : Char → Bool} {rd : T → T}
    (L : C.Law delim rd) (h0 : rd 0 = 0) (hs : s.OK delim) (hre : SepNum delim (s.rparen ++ s.rowend)) (xs : List T)
    (n0 : Int) (hn : s.writesize = false → n0 = xs.length) (rest : Text)
    (hr : EndsNum delim (s.rparen ++ (s.final ++ rest))) :
    ∃ w, AllWs w ∧ readDiag s C n0 (writeDiag s C xs ++ rest) = .ok ((xs.length : Int), xs.map rd) (w ++ rest) := by
  have : Reads (readDiag s C n0) (writeDiag s C xs) ((xs.length : Int), xs.map rd) rest := by
    unfold readDiag writeDiag
    simp only [List.append_assoc]
    refine Reads.bind (reads_code s ['D'] _ (by decide))
      (Reads.bind (reads_size s xs.length n0 _ hs.spaceInt hn)
      (Reads.bind (reads_simpleSize s xs.length xs.length _ hs.spaceInt rfl) ?_))
    simp only [ne_eq, not_true, if_false]
    refine Reads.bind (reads_mark _ _) (Reads.bind (a := xs.map rd) ?_ (Reads.map (g := fun _ => _) (reads_mark _ _)))
    have key := reads_diag (s := s) L h0 hs.space hre xs.length
      (fun i => if s.usecompact then [xs.getD i 0]
        else (List.range xs.length).map fun j => if i = j then xs.getD i 0 else 0)
      (by intro i; split <;> simp)
      (by
        intro i j hj
        split
        · rename_i h; simp only [h, if_true] at hj
          cases j with
          | zero => exact absurd rfl hj
          | succ j => rfl
        · rename_i h; simp only [h] at hj
          by_cases hjl : j < xs.length
          · rw [List.getD_eq_getElem _ _ (by simpa using hjl)]
            simp only [List.getElem_map, List.getElem_range]
            exact if_neg (fun h => hj (by simpa using h.symm))
          · rw [List.getD_eq_default]; simpa using hjl)
      xs.length 0 (s.final ++ rest) hr
    have hmap : ∀ (g : Nat → T), (∀ i (h : i < xs.length), g i = rd xs[i]) →
        (List.range' 0 xs.length).map g = xs.map rd := by
      intro g hg
      apply List.ext_getElem (by simp)
      intro i h1 h2
      simp only [List.getElem_map, List.getElem_range', one_mul, zero_add]
      exact hg i (by simpa using h2)
    rw [hmap] at key
    · have hrw : diagRows s.usecompact xs = (List.range' 0 xs.length).map (fun i => if s.usecompact then [xs.getD i 0]
          else (List.range xs.length).map fun j => if i = j then xs.getD i 0 else 0) := by
        unfold diagRows
        by_cases hc : s.usecompact = true
        · simp only [hc, if_true]
          apply List.ext_getElem (by simp)
          intro i h1 h2
          have : i < xs.length := by simpa using h1
          simp [this]
        · simp only [hc]
          rw [List.range_eq_range']
          rfl
      rw [hrw]
      simpa using key
    · intro i hi
      by_cases hc : s.usecompact = true
      · simp [hc, hi]
      · simp [hc, hi]
  obtain ⟨w, hw, h⟩ := this [] (by simp [AllWs])
  exact ⟨w, hw, by simpa using h⟩

/-- Writing a permutation and reading the text back, in a compact style that writes full sizes (`CompactIO`). -/
theorem perm_roundtrip {s : Style} (hc : s.usecompact = true) (hw : s.writesize = true) (hf : s.simplesize = false)
    (hs : SepNum nonDigit s.space) (isinv : Bool) (vals : List Int) (n0 : Int) (rest : Text)
    (hr : EndsNum nonDigit (s.rparen ++ (s.final ++ rest))) :
    ∃ w, AllWs w ∧ readPerm s n0 (writePerm s isinv vals ++ rest) =
      .ok ((vals.length : Int), isinv, vals) (w ++ rest) := by
  have : Reads (readPerm s n0) (writePerm s isinv vals) ((vals.length : Int), isinv, vals) rest := by
    unfold readPerm writePerm
    simp only [List.append_assoc]
    refine Reads.bind (reads_code s ['P'] _ (by decide))
      (Reads.bind (reads_size s vals.length n0 _ hs (by rw [hw]; simp))
      (Reads.bind (reads_simpleSize s vals.length vals.length _ hs rfl) ?_))
    simp only [ne_eq, not_true, if_false, hc, hw, hf, Bool.not_true, Bool.or_self, Bool.false_eq_true, readFullSize,
      wFullSize, Bool.not_false, if_true]
    refine Reads.bind (reads_size s (if isinv then 1 else 0) 0 _ hs (by rw [hw]; simp))
      (Reads.bind (reads_mark _ _) (Reads.bind (reads_mark _ _) (Reads.bind (a := vals.map id) ?_ ?_)))
    · exact reads_vals intCodec_law hs vals true _ (by simpa [List.append_assoc] using hr)
    · refine Reads.bind (reads_mark _ _) ?_
      have := Reads.map (g := fun _ => ((vals.length : Int), decide ((if isinv then (1 : Int) else 0) ≠ 0), vals.map id))
        (reads_mark s.final rest)
      cases isinv <;> simpa using this
  obtain ⟨w, hw, h⟩ := this [] (by simp [AllWs])
  exact ⟨w, hw, by simpa using h⟩

/-- The predefined styles fulfil the conditions, for integers and for every number format that a blank or a newline
ends. -/
theorem normalIO_ok {delim : Char → Bool} (hb : delim ' ' = true) : normalIO.OK delim ∧
    SepNum delim (normalIO.rparen ++ normalIO.rowend) ∧ ∀ rest, EndsNum delim (normalIO.rparen ++ rest) :=
  ⟨⟨⟨' ', _, rfl, hb⟩, ⟨' ', _, rfl, by decide⟩⟩, ⟨' ', _, rfl, hb⟩, fun rest => Or.inr ⟨' ', _, rfl, hb⟩⟩

theorem compactIO_ok {delim : Char → Bool} (hb : delim ' ' = true) : compactIO.OK delim ∧
    SepNum delim (compactIO.rparen ++ compactIO.rowend) :=
  ⟨⟨⟨' ', _, rfl, hb⟩, ⟨' ', _, rfl, by decide⟩⟩, ⟨' ', _, rfl, hb⟩⟩

theorem eigenIO_ok {delim : Char → Bool} (hb : delim ' ' = true) (hn : delim '\n' = true) : eigenIO.OK delim ∧
    SepNum delim (eigenIO.rparen ++ eigenIO.rowend) :=
  ⟨⟨⟨' ', _, rfl, hb⟩, ⟨' ', _, rfl, by decide⟩⟩, ⟨'\n', _, rfl, hn⟩⟩

/-- Everything together for the three predefined styles: a written vector, matrix or diagonal matrix followed by the
end of the stream is read back. -/
theorem predefined_roundtrip [Zero T] [DecidableEq T] {C : Codec T} {delim : Char → Bool} {rd : T → T}
    (L : C.Law delim rd) (h0 : rd 0 = 0) (hb : delim ' ' = true) (hn : delim '\n' = true) (s : Style)
    (hs : s = normalIO ∨ s = compactIO ∨ s = eigenIO) :
    (∀ xs : List T, ∃ w, AllWs w ∧
      readVector s C xs.length (writeVector s C xs) = .ok ((xs.length : Int), xs.map rd) w) ∧
    (∀ (N : Nat) (rows : List (List T)), (∀ r ∈ rows, r.length = N) → ∃ w, AllWs w ∧
      readMatrix s C rows.length N (writeMatrix s C N rows) =
        .ok ((rows.length : Int), (N : Int), rows.map (List.map rd)) w) ∧
    (∀ xs : List T, ∃ w, AllWs w ∧
      readDiag s C xs.length (writeDiag s C xs) = .ok ((xs.length : Int), xs.map rd) w) := by
  have key : s.OK delim ∧ SepNum delim (s.rparen ++ s.rowend) ∧ EndsNum delim s.rparen ∧
      EndsNum delim (s.rparen ++ s.final) := by
    rcases hs with rfl | rfl | rfl
    · obtain ⟨a, b, c⟩ := normalIO_ok hb
      exact ⟨a, b, by simpa using c [], c _⟩
    · obtain ⟨a, b⟩ := compactIO_ok hb
      exact ⟨a, b, Or.inl rfl, Or.inl rfl⟩
    · obtain ⟨a, b⟩ := eigenIO_ok hb hn
      exact ⟨a, b, Or.inl rfl, Or.inl rfl⟩
  obtain ⟨ho, hre, h1, h2⟩ := key
  refine ⟨fun xs => ?_, fun N rows hrows => ?_, fun xs => ?_⟩
  · simpa using vector_roundtrip L ho xs xs.length (fun _ => rfl) [] (by simpa using h1)
  · simpa using matrix_roundtrip L ho hre N rows hrows rows.length N (fun _ => ⟨rfl, rfl⟩) [] (by simpa using h2)
  · simpa using diag_roundtrip L h0 ho hre xs xs.length (fun _ => rfl) [] (by simpa using h2)

example : readMatrix normalIO intCodec 0 0
    (writeMatrix normalIO intCodec 2 [[1, -2], [30, 4], [5, 66]]) =
    .ok (3, 2, [[1, -2], [30, 4], [5, 66]]) ['\n'] := by decide +kernel

example : readPerm compactIO 0 (writePerm compactIO true [2, 1, 2]) = .ok (3, true, [2, 1, 2]) [] := by
  decide +kernel

/-- `p1 << compact` after a size-changing read: one stream may hold several objects. -/
example : writeVector normalIO intCodec [1, -20] = "2  ( 1  -20 )".toList := by decide +kernel

/-! ### C43: other input -/

theorem bind_ok_iff {α β : Type} (r : Rd α) (f : α → Rd β) (t : Text) (b : β) (rest : Text) :
    r.bind f t = .ok b rest ↔ ∃ a u, r t = .ok a u ∧ f a u = .ok b rest := by
  simp only [Rd.bind]
  cases h : r t with
  | ok a u =>
    constructor
    · intro h'; exact ⟨a, u, rfl, h'⟩
    · rintro ⟨a', u', he, h'⟩; cases he; exact h'
  | err => simp
  | hang => simp
  | ub => simp

/-- Reading `r` uses up a prefix, fails, or gives up; and it does not hang unless what remains ends with white
space. -/
def Safe {α : Type} (r : Rd α) : Prop := ∀ t, (∀ a u, r t = .ok a u → ∃ p, t = p ++ u) ∧
  (r t = .hang → ∃ p u, t = p ++ u ∧ u ≠ [] ∧ AllWs u)

theorem safe_bind {α β : Type} {r : Rd α} {f : α → Rd β} (h1 : Safe r) (h2 : ∀ a, Safe (f a)) : Safe (r.bind f) := by
  intro t
  simp only [Rd.bind]
  cases h : r t with
  | err => simp
  | ub => simp
  | hang => simp only [reduceCtorEq, false_implies, implies_true, true_and]; intro _; exact (h1 t).2 h
  | ok a u =>
    obtain ⟨p, rfl⟩ := (h1 t).1 a u h
    refine ⟨fun b v hb => ?_, fun hh => ?_⟩
    · obtain ⟨q, rfl⟩ := (h2 a u).1 b v hb
      exact ⟨p ++ q, by simp [List.append_assoc]⟩
    · obtain ⟨q, v, rfl, hv, hw⟩ := (h2 a u).2 hh
      exact ⟨p ++ q, v, by simp [List.append_assoc], hv, hw⟩

theorem safe_pure {α : Type} (a : α) : Safe (Rd.pure a) := by
  intro t; exact ⟨fun b u h => ⟨[], by simp only [Rd.pure, Out.ok.injEq] at h; simp [h.2]⟩, by simp [Rd.pure]⟩

theorem safe_fail {α : Type} : Safe (Rd.fail : Rd α) := by
  intro t; simp [Rd.fail]

theorem safe_skip : Safe skip := by
  intro t
  refine ⟨fun a u h => ?_, fun h => ?_⟩
  · obtain ⟨w, c, u', -, -, -, ht⟩ := (skip_ok_iff t u).1 h
    exact ⟨w, ht⟩
  · obtain ⟨h1, h2⟩ := (skip_hang_iff t).1 h
    exact ⟨[], t, rfl, h1, h2⟩

theorem safe_mark (m : Text) : Safe (readMark m) := by
  intro t
  refine ⟨fun a u h => ?_, fun h => ?_⟩
  · rcases (readMark_ok_iff m t u).1 h with ⟨-, rfl⟩ | ⟨-, w, -, ht⟩
    · exact ⟨[], rfl⟩
    · exact ⟨w ++ trim m, ht⟩
  · by_cases h0 : trim m = []
    · simp [readMark, readStr, h0, Rd.pure] at h
    · rw [readMark, readStr_ne h0] at h
      cases hs : skip t with
      | err => rw [hs] at h; simp at h
      | ub => rw [hs] at h; simp at h
      | hang => exact (safe_skip t).2 hs
      | ok a u =>
        rw [hs] at h
        simp only at h
        split at h
        · simp at h
        · split at h <;> simp at h

theorem safe_value {C : Codec T} (hC : C.Suffix) : Safe (readValue C) := by
  refine safe_bind safe_skip fun _ => ?_
  intro t
  cases h : C.parse t with
  | none => simp [h]
  | some p =>
    obtain ⟨x, t'⟩ := p
    simp only [h]
    refine ⟨fun a u hu => ?_, by simp⟩
    simp only [Out.ok.injEq] at hu
    obtain ⟨q, hq⟩ := hC t x t' h
    exact ⟨q, by rw [← hu.2]; exact hq⟩

theorem safe_code (s : Style) (code : Text) : Safe (readCode s code) := by
  unfold readCode
  split
  · exact safe_bind (safe_mark code) fun _ => safe_mark _
  · exact safe_pure _

theorem safe_size (s : Style) (n : Int) : Safe (readSize s n) := by
  unfold readSize
  split
  · exact safe_bind (safe_value intCodec_suffix) fun _ => safe_bind (safe_mark _) fun _ => safe_pure _
  · exact safe_pure _

theorem safe_simpleSize (s : Style) (n : Int) : Safe (readSimpleSize s n) := by
  unfold readSimpleSize
  split
  · exact safe_size _ _
  · exact safe_pure _

theorem safe_fullSize (s : Style) (n : Int) : Safe (readFullSize s n) := by
  unfold readFullSize
  split
  · exact safe_size _ _
  · exact safe_pure _

theorem safe_vals (s : Style) {C : Codec T} (hC : C.Suffix) (n : Nat) : ∀ first, Safe (rVals s C first n) := by
  induction n with
  | zero => intro first; exact safe_pure _
  | succ n ih =>
    intro first
    refine safe_bind ?_ fun _ => safe_bind (safe_value hC) fun _ => safe_bind (ih false) fun _ => safe_pure _
    split
    · exact safe_pure _
    · exact safe_mark _

theorem safe_rows (s : Style) {C : Codec T} (hC : C.Suffix) (N M : Nat) : Safe (rRows s C N M) := by
  induction M with
  | zero => exact safe_pure _
  | succ M ih =>
    refine safe_bind (safe_mark _) fun _ => safe_bind (safe_vals s hC _ _) fun _ => safe_bind (safe_mark _) fun _ =>
      safe_bind ?_ fun _ => safe_bind ih fun _ => safe_pure _
    split
    · exact safe_pure _
    · exact safe_mark _

theorem safe_diagRows [Zero T] [DecidableEq T] (s : Style) {C : Codec T} (hC : C.Suffix) (N k : Nat) :
    ∀ i, Safe (rDiag s C N i k) := by
  induction k with
  | zero => intro i; exact safe_pure _
  | succ k ih =>
    intro i
    refine safe_bind (safe_mark _) fun _ => safe_bind (safe_vals s hC _ _) fun r => ?_
    dsimp only
    generalize (if s.usecompact = true then 0 else i) = c
    split
    · exact safe_fail
    · refine safe_bind (safe_mark _) fun _ => safe_bind ?_ fun _ => safe_bind (ih _) fun _ => safe_pure _
      split
      · exact safe_pure _
      · exact safe_mark _

theorem safe_vector (s : Style) {C : Codec T} (hC : C.Suffix) (n0 : Int) : Safe (readVector s C n0) :=
  safe_bind (safe_code _ _) fun _ => safe_bind (safe_size _ _) fun _ => safe_bind (safe_mark _) fun _ =>
    safe_bind (safe_vals s hC _ _) fun _ => safe_bind (safe_mark _) fun _ => safe_pure _

theorem safe_vectorView (s : Style) {C : Codec T} (hC : C.Suffix) (n0 : Int) : Safe (readVectorView s C n0) := by
  refine safe_bind (safe_code _ _) fun _ => safe_bind (safe_size _ _) fun _ => ?_
  split
  · exact safe_fail
  · exact safe_bind (safe_mark _) fun _ =>
      safe_bind (safe_vals s hC _ _) fun _ => safe_bind (safe_mark _) fun _ => safe_pure _

theorem safe_matrix (s : Style) {C : Codec T} (hC : C.Suffix) (M0 N0 : Int) : Safe (readMatrix s C M0 N0) :=
  safe_bind (safe_code _ _) fun _ => safe_bind (safe_size _ _) fun _ => safe_bind (safe_size _ _) fun _ =>
    safe_bind (safe_mark _) fun _ => safe_bind (safe_rows s hC _ _) fun _ => safe_bind (safe_mark _) fun _ => safe_pure _

theorem safe_diag [Zero T] [DecidableEq T] (s : Style) {C : Codec T} (hC : C.Suffix) (n0 : Int) :
    Safe (readDiag s C n0) := by
  refine safe_bind (safe_code _ _) fun _ => safe_bind (safe_size _ _) fun _ => safe_bind (safe_simpleSize _ _) fun _ => ?_
  split
  · exact safe_fail
  · exact safe_bind (safe_mark _) fun _ => safe_bind (safe_diagRows s hC _ _ _) fun _ =>
      safe_bind (safe_mark _) fun _ => safe_pure _

theorem safe_perm (s : Style) (n0 : Int) : Safe (readPerm s n0) := by
  refine safe_bind (safe_code _ _) fun _ => safe_bind (safe_size _ _) fun _ => safe_bind (safe_simpleSize _ _) fun _ => ?_
  split
  · exact safe_fail
  · split
    · intro t; simp
    · refine safe_bind (safe_fullSize _ _) fun _ => ?_
      split
      · exact safe_fail
      · exact safe_bind (safe_mark _) fun _ => safe_bind (safe_mark _) fun _ =>
          safe_bind (safe_vals s intCodec_suffix _ _) fun _ => safe_bind (safe_mark _) fun _ =>
          safe_bind (safe_mark _) fun _ => safe_pure _

theorem safe_no_hang {α : Type} {r : Rd α} (h : Safe r) (t : Text) (c : Char) (hc : ws c = false) :
    r (t ++ [c]) ≠ .hang := by
  intro hh
  obtain ⟨p, u, ht, hu, hw⟩ := (h _).2 hh
  obtain ⟨v, d, rfl⟩ : ∃ v d, u = v ++ [d] := ⟨u.dropLast, u.getLast hu, (List.dropLast_append_getLast hu).symm⟩
  rw [← List.append_assoc] at ht
  have := (List.append_inj' ht rfl).2
  simp only [List.cons.injEq, and_true] at this
  have hd := hw d (by simp)
  rw [← this, hc] at hd
  cases hd

/-- Part of C43 that holds: reading from a stream whose last character is not white space always ends, whatever the
text, the style and the object.  Missing (and false, see `read_hangs_violated`): the same for every stream. -/
theorem read_terminates_partial [Zero T] [DecidableEq T] {C : Codec T} (hC : C.Suffix) (s : Style) (n0 m0 : Int)
    (t : Text) (c : Char) (hc : ws c = false) :
    readVector s C n0 (t ++ [c]) ≠ .hang ∧ readVectorView s C n0 (t ++ [c]) ≠ .hang ∧
    readMatrix s C m0 n0 (t ++ [c]) ≠ .hang ∧ readDiag s C n0 (t ++ [c]) ≠ .hang ∧
    readPerm s n0 (t ++ [c]) ≠ .hang :=
  ⟨safe_no_hang (safe_vector s hC n0) t c hc, safe_no_hang (safe_vectorView s hC n0) t c hc,
    safe_no_hang (safe_matrix s hC m0 n0) t c hc, safe_no_hang (safe_diag s hC n0) t c hc,
    safe_no_hang (safe_perm s n0) t c hc⟩

example : readVector normalIO intCodec 0 ("3 ( 1 2".toList) = .ub := by decide +kernel

/-- Nothing but the right format is accepted by `readVector`: what was consumed is, up to white space before each
item, the code, the size, the opening marker, the values separated by the separator, the closing marker. -/
inductive Item (T : Type)
  | lit (m : Text)
  | int (n : Int)
  | val (x : T)

/-- `Matches C items t rest`: `t` is the items, each preceded by optional white space, followed by `rest`. -/
def Matches (C : Codec T) : List (Item T) → Text → Text → Prop
  | [], t, rest => t = rest
  | .lit m :: is, t, rest =>
      (trim m = [] ∧ Matches C is t rest) ∨ (trim m ≠ [] ∧ ∃ w u, AllWs w ∧ t = w ++ trim m ++ u ∧ Matches C is u rest)
  | .int n :: is, t, rest => ∃ w c v u, AllWs w ∧ ws c = false ∧ t = w ++ c :: v ∧
      intCodec.parse (c :: v) = some (n, u) ∧ Matches C is u rest
  | .val x :: is, t, rest => ∃ w c v u, AllWs w ∧ ws c = false ∧ t = w ++ c :: v ∧
      C.parse (c :: v) = some (x, u) ∧ Matches C is u rest

/-- The values of a row with the separators between them. -/
def valItems (s : Style) : Bool → List T → List (Item T)
  | _, [] => []
  | first, x :: xs => (if first then [] else [.lit s.space]) ++ .val x :: valItems s false xs

/-- The code item. -/
def codeItems (s : Style) (code : Text) : List (Item T) := if s.usecode then [.lit code, .lit s.space] else []
/-- A size item. -/
def sizeItems (s : Style) (n : Int) : List (Item T) := if s.writesize then [.int n, .lit s.space] else []

/-- The format of a vector. -/
def vecItems (s : Style) (n : Int) (xs : List T) : List (Item T) :=
  codeItems s ['V'] ++ sizeItems s n ++ [.lit s.lparen] ++ valItems s true xs ++ [.lit s.rparen]

/-- The rows of a matrix. -/
def rowItems (s : Style) : List (List T) → List (Item T)
  | [] => []
  | r :: rs => .lit s.lparen :: valItems s true r ++ .lit s.rparen ::
      (if rs.isEmpty then [] else [.lit s.rowend]) ++ rowItems s rs

/-- The format of a matrix. -/
def matItems (s : Style) (M N : Int) (rows : List (List T)) : List (Item T) :=
  codeItems s ['M'] ++ sizeItems s M ++ sizeItems s N ++ [.lit s.start] ++ rowItems s rows ++ [.lit s.final]

theorem matches_append (C : Codec T) (is js : List (Item T)) : ∀ t rest,
    Matches C (is ++ js) t rest ↔ ∃ u, Matches C is t u ∧ Matches C js u rest := by
  induction is with
  | nil => intro t rest; simp [Matches]
  | cons i is ih =>
    intro t rest
    cases i with
    | lit m =>
      simp only [List.cons_append, Matches, ih]
      constructor
      · rintro (⟨h, u, h1, h2⟩ | ⟨h, w, v, hw, ht, u, h1, h2⟩)
        · exact ⟨u, Or.inl ⟨h, h1⟩, h2⟩
        · exact ⟨u, Or.inr ⟨h, w, v, hw, ht, h1⟩, h2⟩
      · rintro ⟨u, ⟨h, h1⟩ | ⟨h, w, v, hw, ht, h1⟩, h2⟩
        · exact Or.inl ⟨h, u, h1, h2⟩
        · exact Or.inr ⟨h, w, v, hw, ht, u, h1, h2⟩
    | int n =>
      simp only [List.cons_append, Matches, ih]
      constructor
      · rintro ⟨w, c, v, u, hw, hc, ht, hp, x, h1, h2⟩
        exact ⟨x, ⟨w, c, v, u, hw, hc, ht, hp, h1⟩, h2⟩
      · rintro ⟨x, ⟨w, c, v, u, hw, hc, ht, hp, h1⟩, h2⟩
        exact ⟨w, c, v, u, hw, hc, ht, hp, x, h1, h2⟩
    | val n =>
      simp only [List.cons_append, Matches, ih]
      constructor
      · rintro ⟨w, c, v, u, hw, hc, ht, hp, x, h1, h2⟩
        exact ⟨x, ⟨w, c, v, u, hw, hc, ht, hp, h1⟩, h2⟩
      · rintro ⟨x, ⟨w, c, v, u, hw, hc, ht, hp, h1⟩, h2⟩
        exact ⟨w, c, v, u, hw, hc, ht, hp, x, h1, h2⟩

theorem mark_matches (C : Codec T) (m t rest : Text) :
    readMark m t = .ok () rest ↔ Matches C [.lit m] t rest := by
  rw [readMark_ok_iff]
  simp only [Matches]
  constructor
  · rintro (h | ⟨h, w, hw, ht⟩)
    · exact Or.inl h
    · exact Or.inr ⟨h, w, rest, hw, ht, rfl⟩
  · rintro (h | ⟨h, w, u, hw, ht, rfl⟩)
    · exact Or.inl h
    · exact Or.inr ⟨h, w, hw, ht⟩

theorem value_ok_iff (C : Codec T) (t rest : Text) (x : T) : readValue C t = .ok x rest ↔
    ∃ w c v, AllWs w ∧ ws c = false ∧ t = w ++ c :: v ∧ C.parse (c :: v) = some (x, rest) := by
  rw [readValue, bind_ok_iff]
  constructor
  · rintro ⟨_, u, h1, h2⟩
    obtain ⟨w, c, v, hw, rfl, hc, ht⟩ := (skip_ok_iff t u).1 h1
    refine ⟨w, c, v, hw, hc, ht, ?_⟩
    cases h : C.parse (c :: v) with
    | none => rw [h] at h2; simp at h2
    | some p => rw [h] at h2; simp only [Out.ok.injEq] at h2; rw [← h2.1, ← h2.2]
  · rintro ⟨w, c, v, hw, hc, ht, hp⟩
    exact ⟨(), c :: v, (skip_ok_iff t _).2 ⟨w, c, v, hw, rfl, hc, ht⟩, by simp [hp]⟩

theorem code_matches (C : Codec T) (s : Style) (code t rest : Text) :
    readCode s code t = .ok () rest ↔ Matches C (codeItems s code) t rest := by
  unfold readCode codeItems
  split
  · rw [bind_ok_iff, show ([Item.lit code, Item.lit s.space] : List (Item T)) = [.lit code] ++ [.lit s.space] from rfl,
      matches_append]
    simp only [← mark_matches]
    constructor
    · rintro ⟨_, u, h1, h2⟩; exact ⟨u, h1, h2⟩
    · rintro ⟨u, h1, h2⟩; exact ⟨(), u, h1, h2⟩
  · simp [Rd.pure, Matches]

theorem size_matches (C : Codec T) (s : Style) (n0 n : Int) (t rest : Text) :
    readSize s n0 t = .ok n rest ↔ Matches C (sizeItems s n) t rest ∧ (s.writesize = false → n = n0) := by
  unfold readSize sizeItems
  split
  · rename_i hw
    rw [bind_ok_iff, show ([Item.int n, Item.lit s.space] : List (Item T)) = [.int n] ++ [.lit s.space] from rfl,
      matches_append]
    simp only [← mark_matches]
    simp only [hw, Bool.true_eq_false, false_implies, and_true, Matches, bind_ok_iff, value_ok_iff,
      Rd.pure, Out.ok.injEq]
    constructor
    · rintro ⟨a, u, ⟨w, c, v, h1, h2, h3, h4⟩, _, x, h5, rfl, rfl⟩
      exact ⟨u, ⟨w, c, v, u, h1, h2, h3, h4, rfl⟩, h5⟩
    · rintro ⟨u, ⟨w, c, v, u', h1, h2, h3, h4, rfl⟩, h5⟩
      exact ⟨n, u', ⟨w, c, v, h1, h2, h3, h4⟩, (), rest, h5, rfl, rfl⟩
  · rename_i hw
    have hw' : s.writesize = false := by simpa using hw
    simp only [Rd.pure, Out.ok.injEq, Matches, hw', true_implies]
    constructor
    · rintro ⟨rfl, h⟩; exact ⟨h, rfl⟩
    · rintro ⟨h, rfl⟩; exact ⟨rfl, h⟩

theorem vals_matches (C : Codec T) (s : Style) (n : Nat) : ∀ (first : Bool) (xs : List T) (t rest : Text),
    rVals s C first n t = .ok xs rest ↔ xs.length = n ∧ Matches C (valItems s first xs) t rest := by
  induction n with
  | zero =>
    intro first xs t rest
    simp only [rVals, Rd.pure, Out.ok.injEq]
    cases xs with
    | nil => simp [valItems, Matches]
    | cons x xs => simp
  | succ n ih =>
    intro first xs t rest
    simp only [rVals, bind_ok_iff, ih, value_ok_iff, Rd.pure, Out.ok.injEq]
    cases xs with
    | nil => simp
    | cons x xs =>
      simp only [valItems, matches_append, Matches, List.length_cons, Nat.add_right_cancel_iff, List.cons.injEq]
      have hm : ∀ u, (if first then Rd.pure () else readMark s.space) t = .ok () u ↔
          Matches C (if first then [] else [.lit s.space]) t u := by
        intro u
        cases first
        · simp only [Bool.false_eq_true, if_false]; exact mark_matches C _ _ _
        · simp [Rd.pure, Matches]
      constructor
      · rintro ⟨_, u, h0, y, v, ⟨w, c, z, h1, h2, h3, h4⟩, ys, q, ⟨h5, h6⟩, ⟨rfl, rfl⟩, rfl⟩
        exact ⟨h5, u, (hm u).1 h0, w, c, z, v, h1, h2, h3, h4, h6⟩
      · rintro ⟨h5, u, h0, w, c, z, v, h1, h2, h3, h4, h6⟩
        exact ⟨(), u, (hm u).2 h0, x, v, ⟨w, c, z, h1, h2, h3, h4⟩, xs, rest, ⟨h5, h6⟩, ⟨rfl, rfl⟩, rfl⟩

/-- `Vector::read` succeeds exactly on the right format. -/
theorem readVector_ok_iff (C : Codec T) (s : Style) (n0 n : Int) (xs : List T) (t rest : Text) :
    readVector s C n0 t = .ok (n, xs) rest ↔
      Matches C (vecItems s n xs) t rest ∧ xs.length = n.toNat ∧ (s.writesize = false → n = n0) := by
  simp only [readVector, bind_ok_iff, code_matches C, size_matches C, mark_matches C, vals_matches, Rd.pure,
    Out.ok.injEq, Prod.mk.injEq, vecItems, matches_append]
  constructor
  · rintro ⟨_, a, h1, _, b, ⟨h2, h3⟩, _, c, h4, _, d, ⟨h5, h6⟩, _, e, h7, ⟨rfl, rfl⟩, rfl⟩
    exact ⟨⟨d, ⟨c, ⟨b, ⟨a, h1, h2⟩, h4⟩, h6⟩, h7⟩, h5, h3⟩
  · rintro ⟨⟨d, ⟨c, ⟨b, ⟨a, h1, h2⟩, h4⟩, h6⟩, h7⟩, h5, h3⟩
    exact ⟨(), a, h1, n, b, ⟨h2, h3⟩, (), c, h4, xs, d, ⟨h5, h6⟩, (), rest, h7, ⟨rfl, rfl⟩, rfl⟩

/-- `VectorView::read` succeeds exactly on the right format with the size of the view. -/
theorem readVectorView_ok_iff (C : Codec T) (s : Style) (n0 n : Int) (xs : List T) (t rest : Text) :
    readVectorView s C n0 t = .ok (n, xs) rest ↔
      Matches C (vecItems s n xs) t rest ∧ xs.length = n.toNat ∧ n = n0 := by
  have hif : ∀ (n' : Int) (r : Rd (Int × List T)) u, (if n' ≠ n0 then Rd.fail else r) u = .ok (n, xs) rest ↔
      n' = n0 ∧ r u = .ok (n, xs) rest := by
    intro n' r u
    by_cases h : n' = n0 <;> simp [h, Rd.fail]
  simp only [readVectorView, bind_ok_iff, hif, code_matches C, size_matches C, mark_matches C, vals_matches, Rd.pure,
    Out.ok.injEq, Prod.mk.injEq, vecItems, matches_append]
  constructor
  · rintro ⟨_, a, h1, _, b, ⟨h2, h3⟩, h0, _, c, h4, _, d, ⟨h5, h6⟩, _, e, h7, ⟨rfl, rfl⟩, rfl⟩
    exact ⟨⟨d, ⟨c, ⟨b, ⟨a, h1, h2⟩, h4⟩, h6⟩, h7⟩, h5, h0⟩
  · rintro ⟨⟨d, ⟨c, ⟨b, ⟨a, h1, h2⟩, h4⟩, h6⟩, h7⟩, h5, h3⟩
    exact ⟨(), a, h1, n, b, ⟨h2, fun _ => h3⟩, h3, (), c, h4, xs, d, ⟨h5, h6⟩, (), rest, h7, ⟨rfl, rfl⟩, rfl⟩

theorem rows_matches (C : Codec T) (s : Style) (N M : Nat) : ∀ (rows : List (List T)) (t rest : Text),
    rRows s C N M t = .ok rows rest ↔
      rows.length = M ∧ (∀ r ∈ rows, r.length = N) ∧ Matches C (rowItems s rows) t rest := by
  induction M with
  | zero =>
    intro rows t rest
    simp only [rRows, Rd.pure, Out.ok.injEq]
    cases rows with
    | nil => simp [rowItems, Matches]
    | cons x xs => simp
  | succ M ih =>
    intro rows t rest
    simp only [rRows, bind_ok_iff, ih, mark_matches C, vals_matches, Rd.pure, Out.ok.injEq]
    cases rows with
    | nil => simp
    | cons r rows =>
      have hm : ∀ u v, (rows.length = M) → ((if M = 0 then Rd.pure () else readMark s.rowend) u = .ok () v ↔
          Matches C (if rows.isEmpty then [] else [.lit s.rowend]) u v) := by
        intro u v hl
        cases rows with
        | nil =>
          have : M = 0 := by simpa using hl.symm
          simp [this, Rd.pure, Matches]
        | cons a b =>
          have : M ≠ 0 := by simp at hl; omega
          simp only [this, if_false, List.isEmpty_cons, Bool.false_eq_true]; exact mark_matches C _ _ _
      have e : rowItems s (r :: rows) = [.lit s.lparen] ++ (valItems s true r ++ ([.lit s.rparen] ++
          ((if rows.isEmpty then [] else [.lit s.rowend]) ++ rowItems s rows))) := by
        simp [rowItems, List.append_assoc]
      rw [e]
      simp only [matches_append, List.length_cons, Nat.add_right_cancel_iff, List.cons.injEq, List.forall_mem_cons]
      constructor
      · rintro ⟨_, a, h1, _, b, ⟨h2, h3⟩, _, c, h4, _, d, h5, _, e, ⟨h6, h7, h8⟩, ⟨rfl, rfl⟩, rfl⟩
        exact ⟨h6, ⟨h2, h7⟩, a, h1, b, h3, c, h4, d, (hm _ _ h6).1 h5, h8⟩
      · rintro ⟨h6, ⟨h2, h7⟩, a, h1, b, h3, c, h4, d, h5, h8⟩
        exact ⟨(), a, h1, r, b, ⟨h2, h3⟩, (), c, h4, (), d, (hm _ _ h6).2 h5, rows, rest, ⟨h6, h7, h8⟩, ⟨rfl, rfl⟩, rfl⟩

/-- `Matrix::read` succeeds exactly on the right format. -/
theorem readMatrix_ok_iff (C : Codec T) (s : Style) (M0 N0 M N : Int) (rows : List (List T)) (t rest : Text) :
    readMatrix s C M0 N0 t = .ok (M, N, rows) rest ↔
      Matches C (matItems s M N rows) t rest ∧ rows.length = M.toNat ∧ (∀ r ∈ rows, r.length = N.toNat) ∧
      (s.writesize = false → M = M0 ∧ N = N0) := by
  simp only [readMatrix, bind_ok_iff, code_matches C, size_matches C, mark_matches C, rows_matches, Rd.pure,
    Out.ok.injEq, Prod.mk.injEq, matItems, matches_append]
  constructor
  · rintro ⟨_, a, h1, _, b, ⟨h2, h3⟩, _, c, ⟨h4, h5⟩, _, d, h6, _, e, ⟨h7, h8, h9⟩, _, f, h10, ⟨rfl, rfl, rfl⟩, rfl⟩
    exact ⟨⟨e, ⟨d, ⟨c, ⟨b, ⟨a, h1, h2⟩, h4⟩, h6⟩, h9⟩, h10⟩, h7, h8, fun h => ⟨h3 h, h5 h⟩⟩
  · rintro ⟨⟨e, ⟨d, ⟨c, ⟨b, ⟨a, h1, h2⟩, h4⟩, h6⟩, h9⟩, h10⟩, h7, h8, h⟩
    exact ⟨(), a, h1, M, b, ⟨h2, fun q => (h q).1⟩, N, c, ⟨h4, fun q => (h q).2⟩, (), d, h6, rows, e, ⟨h7, h8, h9⟩,
      (), rest, h10, ⟨rfl, rfl, rfl⟩, rfl⟩

/-- Column of the diagonal element among the values of row `i`. -/
def diagCol (s : Style) (i : Nat) : Nat := if s.usecompact then 0 else i

theorem diag_matches [Zero T] [DecidableEq T] (C : Codec T) (s : Style) (N k : Nat) :
    ∀ (i : Nat) (xs : List T) (t rest : Text),
    rDiag s C N i k t = .ok xs rest ↔ ∃ rows : List (List T), rows.length = k ∧
      (∀ r ∈ rows, r.length = if s.usecompact then 1 else N) ∧
      (∀ (a : Nat) (r : List T), rows[a]? = some r → ∀ j < r.length, j ≠ diagCol s (i + a) → r.getD j 0 = 0) ∧
      xs.length = k ∧ (∀ (a : Nat) (r : List T), rows[a]? = some r → xs[a]? = some (r.getD (diagCol s (i + a)) 0)) ∧
      Matches C (rowItems s rows) t rest := by
  induction k with
  | zero =>
    intro i xs t rest
    simp only [rDiag, Rd.pure, Out.ok.injEq]
    constructor
    · rintro ⟨rfl, rfl⟩
      exact ⟨[], rfl, by simp, by simp, rfl, by simp, by simp [rowItems, Matches]⟩
    · rintro ⟨rows, h1, -, -, h2, -, h3⟩
      rw [List.length_eq_zero_iff] at h1 h2
      subst h1; subst h2
      exact ⟨rfl, by simpa [rowItems, Matches] using h3⟩
  | succ k ih =>
    intro i xs t rest
    have hc0 : (if s.usecompact = true then 0 else i) = diagCol s i := rfl
    have hif : ∀ (r : List T) (q : Rd (List T)) u,
        (if ((List.range r.length).any fun j => j != diagCol s i && decide (r.getD j 0 ≠ 0)) = true then Rd.fail else q) u
          = .ok xs rest ↔ (∀ j < r.length, j ≠ diagCol s i → r.getD j 0 = 0) ∧ q u = .ok xs rest := by
      intro r q u
      by_cases h : ((List.range r.length).any fun j => j != diagCol s i && decide (r.getD j 0 ≠ 0)) = true
      · rw [if_pos h]
        simp only [Rd.fail, reduceCtorEq, false_iff, not_and]
        intro hall
        rw [List.any_eq_true] at h
        obtain ⟨j, hj, hj2⟩ := h
        simp only [bne_iff_ne, ne_eq, Bool.and_eq_true, decide_eq_true_eq] at hj2
        exact absurd (hall j (List.mem_range.1 hj) hj2.1) hj2.2
      · rw [if_neg h]
        simp only [iff_and_self]
        intro _ j hj hne
        by_contra hz
        apply h
        rw [List.any_eq_true]
        exact ⟨j, List.mem_range.2 hj, by simp [hne]; simpa using hz⟩
    simp only [rDiag, hc0, bind_ok_iff, hif, mark_matches C, vals_matches, Rd.pure, Out.ok.injEq]
    constructor
    · rintro ⟨_, a, h1, r, b, ⟨h2, h3⟩, h4, _, c, h5, _, d, h6, ys, e, h7, rfl, rfl⟩
      obtain ⟨rows, g1, g2, g3, g4, g5, g6⟩ := (ih (i + 1) ys d e).1 h7
      refine ⟨r :: rows, by simp [g1], ?_, ?_, by simp [g4], ?_, ?_⟩
      · intro q hq
        rcases List.mem_cons.1 hq with rfl | hq
        · exact h2
        · exact g2 q hq
      · intro n q hq
        cases n with
        | zero =>
          simp only [List.getElem?_cons_zero, Option.some.injEq] at hq
          subst hq; exact h4
        | succ n =>
          simp only [List.getElem?_cons_succ] at hq
          have := g3 n q hq
          rwa [show i + 1 + n = i + (n + 1) by omega] at this
      · intro n q hq
        cases n with
        | zero =>
          simp only [List.getElem?_cons_zero, Option.some.injEq] at hq
          subst hq; simp
        | succ n =>
          simp only [List.getElem?_cons_succ] at hq ⊢
          have := g5 n q hq
          rwa [show i + 1 + n = i + (n + 1) by omega] at this
      · have e : rowItems s (r :: rows) = [.lit s.lparen] ++ (valItems s true r ++ ([.lit s.rparen] ++
            ((if rows.isEmpty then [] else [.lit s.rowend]) ++ rowItems s rows))) := by
          simp [rowItems, List.append_assoc]
        rw [e]
        simp only [matches_append]
        refine ⟨a, h1, b, h3, c, h5, d, ?_, g6⟩
        cases rows with
        | nil =>
          have : k = 0 := by simpa using g1.symm
          rw [if_pos this] at h6
          simpa [Rd.pure, Matches] using h6
        | cons x y =>
          have : k ≠ 0 := by simp at g1; omega
          rw [if_neg this] at h6
          exact (mark_matches C _ _ _).1 h6
    · rintro ⟨rows, g1, g2, g3, g4, g5, g6⟩
      cases rows with
      | nil => simp at g1
      | cons r rows =>
        have e : rowItems s (r :: rows) = [.lit s.lparen] ++ (valItems s true r ++ ([.lit s.rparen] ++
            ((if rows.isEmpty then [] else [.lit s.rowend]) ++ rowItems s rows))) := by
          simp [rowItems, List.append_assoc]
        rw [e] at g6
        simp only [matches_append] at g6
        obtain ⟨a, h1, b, h3, c, h5, d, h6, g6⟩ := g6
        cases xs with
        | nil => simp at g4
        | cons x xs =>
          have hx := g5 0 r (by simp)
          simp only [List.getElem?_cons_zero, Option.some.injEq, Nat.add_zero] at hx
          refine ⟨(), a, h1, r, b, ⟨g2 r List.mem_cons_self, h3⟩, by simpa using g3 0 r (by simp), (), c, h5, (), d, ?_, xs,
            rest, (ih (i + 1) xs d rest).2 ⟨rows, by simpa using g1, fun q hq => g2 q (List.mem_cons_of_mem _ hq), ?_,
              by simpa using g4, ?_, g6⟩, by rw [hx], rfl⟩
          · cases rows with
            | nil =>
              have : k = 0 := by simpa using g1.symm
              rw [if_pos this]
              simpa [Rd.pure, Matches] using h6
            | cons x y =>
              have : k ≠ 0 := by simp at g1; omega
              rw [if_neg this]
              exact (mark_matches C _ _ _).2 h6
          · intro n q hq
            have := g3 (n + 1) q (by simpa using hq)
            rwa [show i + 1 + n = i + (n + 1) by omega]
          · intro n q hq
            have := g5 (n + 1) q (by simpa using hq)
            rw [show i + 1 + n = i + (n + 1) by omega]
            simpa using this

/-- The format of a diagonal matrix: rows of one value in a compact style, full rows otherwise. -/
def diagItems (s : Style) (n : Int) (rows : List (List T)) : List (Item T) :=
  codeItems s ['D'] ++ sizeItems s n ++ (if s.simplesize then sizeItems s n else []) ++ [.lit s.start] ++
    rowItems s rows ++ [.lit s.final]

/-- `DiagMatrix::read` succeeds exactly on the right format: equal sizes, zeros off the diagonal. -/
theorem readDiag_ok_iff [Zero T] [DecidableEq T] (C : Codec T) (s : Style) (n0 n : Int) (xs : List T) (t rest : Text) :
    readDiag s C n0 t = .ok (n, xs) rest ↔ ∃ rows : List (List T), rows.length = n.toNat ∧
      (∀ r ∈ rows, r.length = if s.usecompact then 1 else n.toNat) ∧
      (∀ (a : Nat) (r : List T), rows[a]? = some r → ∀ j < r.length, j ≠ diagCol s a → r.getD j 0 = 0) ∧
      xs.length = n.toNat ∧ (∀ (a : Nat) (r : List T), rows[a]? = some r → xs[a]? = some (r.getD (diagCol s a) 0)) ∧
      Matches C (diagItems s n rows) t rest ∧ (s.writesize = false → n = n0) := by
  have hif : ∀ (n' n'' : Int) (r : Rd (Int × List T)) u, (if n' ≠ n'' then Rd.fail else r) u = .ok (n, xs) rest ↔
      n' = n'' ∧ r u = .ok (n, xs) rest := by
    intro n' n'' r u
    by_cases h : n' = n'' <;> simp [h, Rd.fail]
  have hss : ∀ (m m' : Int) u v, m' = m → (readSimpleSize s m u = .ok m' v ↔
      Matches C (if s.simplesize then sizeItems s m else []) u v) := by
    rintro m m' u v rfl
    unfold readSimpleSize
    split
    · rw [size_matches C]; simp
    · simp [Rd.pure, Matches]
  simp only [readDiag, bind_ok_iff, hif, code_matches C, size_matches C, mark_matches C, diag_matches, Rd.pure,
    Out.ok.injEq, Prod.mk.injEq, diagItems, matches_append, Nat.zero_add]
  constructor
  · rintro ⟨_, a, h1, m, b, ⟨h2, h3⟩, m', c, h4, hm, _, d, h5, ys, e, ⟨rows, g1, g2, g3, g4, g5, g6⟩, _, f, h7, ⟨rfl, rfl⟩, rfl⟩
    exact ⟨rows, g1, g2, g3, g4, g5, ⟨e, ⟨d, ⟨c, ⟨b, ⟨a, h1, h2⟩, (hss _ _ _ _ hm).1 h4⟩, h5⟩, g6⟩, h7⟩, h3⟩
  · rintro ⟨rows, g1, g2, g3, g4, g5, ⟨e, ⟨d, ⟨c, ⟨b, ⟨a, h1, h2⟩, h4⟩, h5⟩, g6⟩, h7⟩, h3⟩
    exact ⟨(), a, h1, n, b, ⟨h2, h3⟩, n, c, (hss _ _ _ _ rfl).2 h4, rfl, (), d, h5, xs, e,
      ⟨rows, g1, g2, g3, g4, g5, g6⟩, (), rest, h7, ⟨rfl, rfl⟩, rfl⟩

/-! ### Where C43 fails -/

/-- VIOLATED: reading a vector from a stream that was cut off after white space never returns: with any number of
rounds the loop of `skipWhiteSpace` is still running. -/
theorem read_hangs_violated :
    readVector normalIO intCodec 0 "3 ( 1 2 \n".toList = .hang ∧
    (∀ n, skipFuel n " \n".toList none = none) ∧
    readMatrix eigenIO intCodec 2 2 "1 2\n3 \n\n".toList = .hang := by
  refine ⟨by decide +kernel, ?_, by decide +kernel⟩
  have := skip_refines " \n".toList none (by simp)
  have e : skipAux (none : Option Char).isSome " \n".toList = .hang := by decide +kernel
  rw [e] at this
  exact this

/-- VIOLATED: at the exact end of the stream `skipWhiteSpace` tests a character that was never assigned. -/
theorem read_uninitialised_violated : readVector normalIO intCodec 0 "3 ( 1 2".toList = .ub ∧
    readVector compactIO intCodec 0 [] = .ub := by
  constructor <;> decide +kernel

/-- VIOLATED: a negative size is not a `ReadError`: `read` succeeds (and resizes the vector to `-3`). -/
theorem read_negative_size_violated : readVector normalIO intCodec 0 "-3 ( )".toList = .ok (-3, []) [] := by
  decide +kernel

/-- VIOLATED: a permutation written in a compact style with a simple size (or no size) is read back with an
uninitialised inverse flag, for every content. -/
theorem read_perm_isinv_violated :
    readPerm { compactIO with simplesize := true } 0
      (writePerm { compactIO with simplesize := true } true [1, 1]) = .ub := by decide +kernel

/-- VIOLATED: the interchanges read are not checked: indices outside the permutation are accepted. -/
theorem read_perm_range_violated :
    readPerm compactIO 0 "P 2 0 7 -4".toList = .ok (2, false, [7, -4]) [] := by decide +kernel

end TMV.IO
