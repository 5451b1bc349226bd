import Verif.Lemmas.Lexer
import Mathlib.Data.List.Infix

/-!
# Lemmas: reading printed strings
-/

namespace Carcara

theorem escapeString_nil : escapeString [] = [] := rfl
theorem escapeString_quote (s : List Char) : escapeString ('"' :: s) = '"' :: '"' :: escapeString s := rfl
theorem escapeString_cons {c : Char} (h : c ≠ '"') (s : List Char) : escapeString (c :: s) = c :: escapeString s := by
  simp [escapeString, h]

theorem escapeString_append (a b : List Char) : escapeString (a ++ b) = escapeString a ++ escapeString b := by
  simp [escapeString]

theorem hex_not_quote {c : Char} (h : isHexDigit c = true) : c ≠ '"' ∧ c ≠ '\\' ∧ c ≠ '}' ∧ c ≠ '{' := by
  refine ⟨?_, ?_, ?_, ?_⟩ <;> rintro rfl <;> revert h <;> decide

theorem escapeString_hex {ds : List Char} (h : ∀ d ∈ ds, isHexDigit d = true) : escapeString ds = ds := by
  induction ds with
  | nil => rfl
  | cons d ds ih =>
    rw [escapeString_cons (hex_not_quote (h d (by simp))).1, ih fun e he => h e (List.mem_cons_of_mem _ he)]

theorem takeHex_escape (rest : List Char) : ∀ (n : ℕ) (s : List Char), ∃ ds s', s = ds ++ s' ∧ (∀ d ∈ ds, isHexDigit d = true) ∧ ds.length ≤ n ∧
    (ds.length = n ∨ NotNext isHexDigit s') ∧ takeHex n (escapeString s ++ '"' :: rest) = .ok (ds, escapeString s' ++ '"' :: rest)
  | 0, s => ⟨[], s, rfl, by simp, Nat.le_refl _, .inl rfl, rfl⟩
  | n + 1, [] => ⟨[], [], rfl, by simp, Nat.zero_le _, .inr (by simp [NotNext]), rfl⟩
  | n + 1, c :: s => by
    by_cases hc : isHexDigit c = true
    · obtain ⟨ds, s', rfl, h1, h2, h3, h4⟩ := takeHex_escape rest n s
      refine ⟨c :: ds, s', rfl, List.forall_mem_cons.2 ⟨hc, h1⟩, Nat.succ_le_succ h2, h3.imp (congrArg (· + 1)) id, ?_⟩
      rw [escapeString_cons (hex_not_quote hc).1, List.cons_append, takeHex, if_pos hc, h4]
    · refine ⟨[], c :: s, rfl, by simp, Nat.zero_le _, .inr (by simpa [NotNext] using hc), ?_⟩
      by_cases hq : c = '"'
      · subst hq
        rfl
      · rw [escapeString_cons hq, List.cons_append, takeHex, if_neg hc]

theorem hex_brace_unique {ds ds' s t : List Char} {n : ℕ} (h : ds ++ s = ds' ++ '}' :: t) (hd : ∀ d ∈ ds, isHexDigit d = true)
    (hd' : ∀ d ∈ ds', isHexDigit d = true) (hn : ds.length = n ∨ NotNext isHexDigit s) (hl : ds'.length ≤ n) : ds = ds' ∧ s = '}' :: t := by
  induction ds generalizing ds' n with
  | nil =>
    cases ds' with
    | nil => exact ⟨rfl, h⟩
    | cons d ds' =>
      rw [List.nil_append] at h
      subst h
      rcases hn with hn | hn
      · simp at hn hl
        omega
      · have := hn d (by simp)
        rw [hd' d (by simp)] at this
        cases this
  | cons d ds ih =>
    cases ds' with
    | nil =>
      rw [List.nil_append, List.cons_append, List.cons.injEq] at h
      exact absurd h.1 (hex_not_quote (hd d (by simp))).2.2.1
    | cons d' ds' =>
      rw [List.cons_append, List.cons_append, List.cons.injEq] at h
      obtain ⟨rfl, h⟩ := h
      obtain ⟨h1, h2⟩ := ih (n := n - 1) h (fun e he => hd e (List.mem_cons_of_mem _ he)) (fun e he => hd' e (List.mem_cons_of_mem _ he))
        (hn.imp (fun h => by simp at h; omega) id) (by simp at hl; omega)
      exact ⟨by rw [h1], h2⟩

/-- An escape sequence at the start, after `\u`. -/
def EscapeHere (s : List Char) : Prop := ∃ h, IsEscape h ∧ h <+: '\\' :: 'u' :: s

theorem escapeHere_brace {s : List Char} : EscapeHere ('{' :: s) ↔ ∃ ds t, s = ds ++ '}' :: t ∧ (∀ d ∈ ds, isHexDigit d = true) ∧
    1 ≤ ds.length ∧ ds.length ≤ 5 ∧ ofDigits 16 ds ≤ 0x2FFFF := by
  constructor
  · rintro ⟨h, ⟨ds, hd, ⟨rfl, h1, h2, h3⟩ | ⟨rfl, h1⟩⟩, t, e⟩
    · refine ⟨ds, t, ?_, hd, h1, h2, h3⟩
      have : '\\' :: 'u' :: '{' :: (ds ++ '}' :: t) = '\\' :: 'u' :: '{' :: s := by simpa using e
      simpa using this.symm
    · match ds, h1 with
      | d :: ds, _ =>
        have : '\\' :: 'u' :: d :: (ds ++ t) = '\\' :: 'u' :: '{' :: s := by simpa using e
        simp only [List.cons.injEq, true_and] at this
        exact absurd this.1 (hex_not_quote (hd d (by simp))).2.2.2
  · rintro ⟨ds, t, rfl, hd, h1, h2, h3⟩
    exact ⟨_, ⟨ds, hd, .inl ⟨rfl, h1, h2, h3⟩⟩, t, by simp⟩

theorem escapeHere_other {s : List Char} (hs : s.head? ≠ some '{') : EscapeHere s ↔ ∃ ds t, s = ds ++ t ∧ (∀ d ∈ ds, isHexDigit d = true) ∧
    ds.length = 4 := by
  constructor
  · rintro ⟨h, ⟨ds, hd, ⟨rfl, h1, h2, h3⟩ | ⟨rfl, h1⟩⟩, t, e⟩
    · have : '\\' :: 'u' :: '{' :: (ds ++ '}' :: t) = '\\' :: 'u' :: s := by simpa using e
      simp only [List.cons.injEq, true_and] at this
      exact absurd (by rw [← this]; rfl) hs
    · have : '\\' :: 'u' :: (ds ++ t) = '\\' :: 'u' :: s := by simpa using e
      simp only [List.cons.injEq, true_and] at this
      exact ⟨ds, t, this.symm, hd, h1⟩
  · rintro ⟨ds, t, rfl, hd, h1⟩
    exact ⟨_, ⟨ds, hd, .inr ⟨rfl, h1⟩⟩, t, by simp⟩

/-- What reading an escape sequence does to a printed string. -/
theorem readEscape_escape (rest s : List Char) :
    (¬ EscapeHere s ∧ ∃ pre suf, s = pre ++ suf ∧ '\\' ∉ pre ∧
      readEscape (escapeString s ++ '"' :: rest) = .ok ('\\' :: 'u' :: pre, escapeString suf ++ '"' :: rest)) ∨
    (EscapeHere s ∧ (readEscape (escapeString s ++ '"' :: rest) = err ∨ ∃ c pre suf, s = pre ++ suf ∧ 1 ≤ pre.length ∧
      readEscape (escapeString s ++ '"' :: rest) = .ok ([c], escapeString suf ++ '"' :: rest))) := by
  by_cases hb : s.head? = some '{'
  · obtain ⟨s, rfl⟩ : ∃ s', s = '{' :: s' := by
      cases s with
      | nil => cases hb
      | cons c s => cases hb; exact ⟨s, rfl⟩
    obtain ⟨ds, s', rfl, h1, h2, h3, h4⟩ := takeHex_escape rest 5 s
    rw [escapeHere_brace, escapeString_cons (by decide), List.cons_append]
    unfold readEscape
    simp only
    rw [h4]
    have hds : '\\' ∉ ds := fun h => (hex_not_quote (h1 _ h)).2.1 rfl
    by_cases hc : s'.head? = some '}'
    · obtain ⟨s, rfl⟩ : ∃ s, s' = '}' :: s := by
        cases s' with
        | nil => cases hc
        | cons c s => cases hc; exact ⟨s, rfl⟩
      rw [escapeString_cons (by decide), List.cons_append]
      simp only
      by_cases hn : ds = []
      · subst hn
        refine .inl ⟨?_, ['{', '}'], s, rfl, by decide, rfl⟩
        rintro ⟨ds', t, e, k1, k2, k3, k4⟩
        obtain ⟨rfl, _⟩ := hex_brace_unique e h1 k1 h3 k3
        simp at k2
      · rw [if_neg hn]
        have hl : 1 ≤ ds.length := List.length_pos_iff.2 hn
        by_cases hv : 0x2FFFF < ofDigits 16 ds
        · rw [if_pos hv]
          refine .inl ⟨?_, '{' :: ds ++ ['}'], s, by simp, by simpa using hds, by simp⟩
          rintro ⟨ds', t, e, k1, k2, k3, k4⟩
          obtain ⟨rfl, _⟩ := hex_brace_unique e h1 k1 h3 k3
          omega
        · rw [if_neg hv]
          refine .inr ⟨⟨ds, s, rfl, h1, hl, h2, by omega⟩, ?_⟩
          by_cases hu : (ofDigits 16 ds).isValidChar
          · rw [charOf, if_pos hu]
            exact .inr ⟨_, '{' :: ds ++ ['}'], s, by simp, by simp, rfl⟩
          · rw [charOf, if_neg hu]
            exact .inl rfl
    · refine .inl ⟨?_, '{' :: ds, s', rfl, by simpa using hds, ?_⟩
      · rintro ⟨ds', t, e, k1, k2, k3, k4⟩
        obtain ⟨rfl, rfl⟩ := hex_brace_unique e h1 k1 h3 k3
        exact hc rfl
      · cases s' with
        | nil => rfl
        | cons c s =>
          by_cases hq : c = '"'
          · subst hq
            rfl
          · rw [escapeString_cons hq, List.cons_append]
            dsimp only
            split
            · rename_i h
              cases h
              exact absurd rfl hc
            · rfl
  · obtain ⟨ds, s', rfl, h1, h2, h3, h4⟩ := takeHex_escape rest 4 s
    rw [escapeHere_other hb]
    have hr : readEscape (escapeString (ds ++ s') ++ '"' :: rest) = 
      match takeHex 4 (escapeString (ds ++ s') ++ '"' :: rest) with
      | .error e => .error e
      | .ok (ds, cs) =>
        if ds.length ≠ 4 then .ok ("\\u".toList ++ ds, cs)
        else match charOf (ofDigits 16 ds) with
          | .ok c => .ok ([c], cs)
          | .error e => .error e := by
      unfold readEscape
      split
      · rename_i h
        exfalso
        apply hb
        cases e : ds ++ s' with
        | nil => rw [e] at h; cases h
        | cons c r =>
          rw [e] at h
          by_cases hq : c = '"'
          · subst hq
            cases h
          · rw [escapeString_cons hq] at h
            cases h
            rfl
      · rename_i h
        simp at h
      · rfl
    rw [hr, h4]
    simp only
    have hds : '\\' ∉ ds := fun h => (hex_not_quote (h1 _ h)).2.1 rfl
    by_cases hl : ds.length = 4
    · rw [if_neg (by simpa using hl)]
      refine .inr ⟨⟨ds, s', rfl, h1, hl⟩, ?_⟩
      by_cases hu : (ofDigits 16 ds).isValidChar
      · rw [charOf, if_pos hu]
        exact .inr ⟨_, ds, s', rfl, by omega, rfl⟩
      · rw [charOf, if_neg hu]
        exact .inl rfl
    · rw [if_pos hl]
      refine .inl ⟨?_, ds, s', rfl, hds, rfl⟩
      rintro ⟨ds', t, e, k1, k2⟩
      have h3' := h3.resolve_left hl
      have hlt : ds.length < 4 := by omega
      have he : s'[0]? = ds'[ds.length]? := by
        have := congrArg (·[ds.length]?) e
        rw [List.getElem?_append_right (Nat.le_refl _), Nat.sub_self, List.getElem?_append_left (show ds.length < ds'.length by omega)] at this
        exact this
      rw [List.getElem?_eq_getElem (l := ds') (by omega)] at he
      have := h3' _ (by rw [List.head?_eq_getElem?]; exact he)
      rw [k1 _ (List.getElem_mem _)] at this
      cases this

theorem readString_quote {cs : List Char} : readString ('"' :: '"' :: cs) = readString cs >>= fun r => .ok ('"' :: r.1, r.2) := by
  rw [readString.eq_def]
  rfl

theorem readString_end {cs : List Char} (h : cs.head? ≠ some '"') : readString ('"' :: cs) = .ok ([], cs) := by
  rw [readString.eq_def]
  simp only [if_true]
  split
  · exact absurd rfl h
  · rfl

theorem readString_escape {cs : List Char} : readString ('\\' :: 'u' :: cs) =
    readEscape cs >>= fun p => readString p.2 >>= fun r => .ok (p.1 ++ r.1, r.2) := by
  rw [readString.eq_def]
  simp only [if_true, reduceIte, Char.reduceEq]
  split
  · rename_i h
    rw [h]
    rfl
  · rename_i h
    rw [h]
    rfl

theorem readString_backslash {cs : List Char} (h : cs.head? ≠ some 'u') : readString ('\\' :: cs) =
    readString cs >>= fun r => .ok ('\\' :: r.1, r.2) := by
  rw [readString.eq_def]
  simp only [if_true, reduceIte, Char.reduceEq]
  split
  · exact absurd rfl h
  · rfl

theorem readString_char {c : Char} {cs : List Char} (h1 : c ≠ '"') (h2 : c ≠ '\\') : readString (c :: cs) =
    readString cs >>= fun r => .ok (c :: r.1, r.2) := by
  rw [readString.eq_def]
  simp only [if_neg h1, if_neg h2]

theorem hasEscape_cons {c : Char} {s : List Char} : HasEscape (c :: s) ↔ HasEscape s ∨ ∃ h, IsEscape h ∧ h <+: c :: s := by
  unfold HasEscape
  constructor
  · rintro ⟨h, h1, h2⟩
    rcases List.infix_cons_iff.1 h2 with h2 | h2
    · exact .inr ⟨h, h1, h2⟩
    · exact .inl ⟨h, h1, h2⟩
  · rintro (⟨h, h1, h2⟩ | ⟨h, h1, h2⟩)
    · exact ⟨h, h1, List.infix_cons_iff.2 (.inr h2)⟩
    · exact ⟨h, h1, List.infix_cons_iff.2 (.inl h2)⟩

theorem isEscape_start {h : List Char} (hh : IsEscape h) : ∃ t, h = '\\' :: 'u' :: t := by
  obtain ⟨ds, _, ⟨rfl, _⟩ | ⟨rfl, _⟩⟩ := hh
  · exact ⟨_, rfl⟩
  · exact ⟨_, rfl⟩

theorem hasEscape_char {c : Char} {s : List Char} (hc : c ≠ '\\') : HasEscape (c :: s) ↔ HasEscape s := by
  rw [hasEscape_cons]
  refine ⟨fun h => h.elim id ?_, .inl⟩
  rintro ⟨h, h1, h2⟩
  obtain ⟨t, rfl⟩ := isEscape_start h1
  obtain ⟨r, e⟩ := h2
  cases e
  exact absurd rfl hc

theorem hasEscape_skip {pre s : List Char} (hp : '\\' ∉ pre) : HasEscape (pre ++ s) ↔ HasEscape s := by
  induction pre with
  | nil => rfl
  | cons c pre ih =>
    simp only [List.mem_cons, not_or] at hp
    rw [List.cons_append, hasEscape_char (Ne.symm hp.1), ih hp.2]

theorem hasEscape_backslash {s : List Char} (h : s.head? ≠ some 'u') : HasEscape ('\\' :: s) ↔ HasEscape s := by
  rw [hasEscape_cons]
  refine ⟨fun h' => h'.elim id ?_, .inl⟩
  clear * - h
  rintro ⟨e, h1, h2⟩
  obtain ⟨t, rfl⟩ := isEscape_start h1
  obtain ⟨r, e⟩ := h2
  cases e
  exact absurd rfl h

theorem hasEscape_u {s : List Char} : HasEscape ('\\' :: 'u' :: s) ↔ HasEscape s ∨ EscapeHere s := by
  rw [hasEscape_cons, hasEscape_char (by decide)]
  rfl

/-- Without escape sequences, a printed string reads back. With some, the result is shorter. -/
theorem readString_print (rest : List Char) (hr : rest.head? ≠ some '"') (s : List Char) :
    (¬ HasEscape s → readString (escapeString s ++ '"' :: rest) = .ok (s, rest)) ∧
    ∀ r rest', readString (escapeString s ++ '"' :: rest) = .ok (r, rest') → r.length ≤ s.length ∧ (HasEscape s → r.length < s.length) := by
  induction hn : s.length using Nat.strongRecOn generalizing s with
  | _ n ih =>
    subst hn
    cases s with
    | nil =>
      rw [escapeString_nil, List.nil_append, readString_end hr]
      refine ⟨fun _ => rfl, fun r rest' h => ?_⟩
      cases h
      refine ⟨Nat.le_refl _, ?_⟩
      rintro ⟨h, h1, h2⟩
      obtain ⟨t, rfl⟩ := isEscape_start h1
      simp at h2
    | cons c s =>
      have step : ∀ {cs : List Char} {p : List Char} (suf : List Char), c :: s = p ++ suf → 0 < p.length →
          (readString cs = readString (escapeString suf ++ '"' :: rest) >>= fun r => .ok (p ++ r.1, r.2)) → (HasEscape (c :: s) ↔ HasEscape suf) →
          (¬ HasEscape (c :: s) → readString cs = .ok (c :: s, rest)) ∧
          ∀ r rest', readString cs = .ok (r, rest') → r.length ≤ (c :: s).length ∧ (HasEscape (c :: s) → r.length < (c :: s).length) := by
        intro cs p suf e hp hcs hE
        obtain ⟨h1, h2⟩ := ih suf.length (by rw [e]; simp; omega) suf rfl
        rw [hE, hcs, e]
        refine ⟨fun hE => by rw [h1 hE]; rfl, fun r rest' h => ?_⟩
        obtain ⟨⟨r', rest''⟩, h3, h4⟩ := bind_ok.1 h
        cases h4
        obtain ⟨h5, h6⟩ := h2 _ _ h3
        simp only [List.length_append]
        exact ⟨by omega, fun hE => by have := h6 hE; omega⟩
      by_cases hq : c = '"'
      · subst hq
        rw [escapeString_quote]
        exact step (p := ['"']) s rfl (by simp) readString_quote (hasEscape_char (by decide))
      by_cases hb : c = '\\'
      · subst hb
        rw [escapeString_cons (by decide)]
        by_cases hu : s.head? = some 'u'
        · obtain ⟨s, rfl⟩ : ∃ s', s = 'u' :: s' := by
            cases s with
            | nil => cases hu
            | cons c s => cases hu; exact ⟨s, rfl⟩
          rw [escapeString_cons (by decide), List.cons_append, List.cons_append]
          rcases readEscape_escape rest s with ⟨hE, pre, suf, rfl, hp, he⟩ | ⟨hE, he | ⟨c, pre, suf, rfl, hp, he⟩⟩
          · refine step (p := '\\' :: 'u' :: pre) suf rfl (by simp) ?_ ?_
            · rw [readString_escape, he]
              rfl
            · rw [hasEscape_u, hasEscape_skip hp]
              exact ⟨fun h => h.resolve_right hE, .inl⟩
          · rw [readString_escape, he]
            exact ⟨fun h => absurd (hasEscape_u.2 (.inr hE)) h, fun r rest' h => by cases h⟩
          · rw [readString_escape, he]
            refine ⟨fun h => absurd (hasEscape_u.2 (.inr hE)) h, fun r rest' h => ?_⟩
            obtain ⟨⟨r', rest''⟩, h3, h4⟩ := bind_ok.1 (show (readString (escapeString suf ++ '"' :: rest) >>= fun r => .ok ([c] ++ r.1, r.2)) = _ from h)
            cases h4
            obtain ⟨h5, h6⟩ := (ih suf.length (by simp; omega) suf rfl).2 _ _ h3
            simp only [List.length_append, List.length_cons, List.length_nil]
            exact ⟨by omega, fun _ => by omega⟩
        · refine step (p := ['\\']) s rfl (by simp) ?_ (hasEscape_backslash hu)
          rw [List.cons_append, readString_backslash]
          · rfl
          · cases s with
            | nil => simp [escapeString_nil]
            | cons c s =>
              by_cases hq : c = '"'
              · subst hq
                simp [escapeString_quote]
              · rw [escapeString_cons hq]
                exact hu
      · rw [escapeString_cons hq]
        exact step (p := [c]) s rfl (by simp) (readString_char hq hb) (hasEscape_char hb)

end Carcara
