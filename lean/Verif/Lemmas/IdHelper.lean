import Verif.Model.IdHelper
import Verif.Lemmas.Utils

/-! # Identifiers of new steps: helper lemmas -/

namespace Carcara

theorem toDigits_inj {m n : Nat} (h : Nat.toDigits 10 m = Nat.toDigits 10 n) : m = n := by
  rw [← Nat.ofDigitChars_ten_toDigits (n := m), h, Nat.ofDigitChars_ten_toDigits]

/-- Digits followed by something that does not begin with a digit can be split uniquely. -/
theorem digits_split {as bs cs ds : List Char} (ha : ∀ c ∈ as, c.isDigit = true) (hc : ∀ c ∈ cs, c.isDigit = true)
    (hb : ∀ c, bs.head? = some c → c.isDigit = false) (hd : ∀ c, ds.head? = some c → c.isDigit = false)
    (h : as ++ bs = cs ++ ds) : as = cs ∧ bs = ds := by
  induction as generalizing cs with
  | nil =>
    cases cs with
    | nil => exact ⟨rfl, by simpa using h⟩
    | cons c cs =>
      simp only [List.nil_append, List.cons_append] at h
      have := hb c (by simp [h])
      rw [hc c (by simp)] at this
      cases this
  | cons a as ih =>
    cases cs with
    | nil =>
      simp only [List.nil_append, List.cons_append] at h
      have := hd a (by simp [← h])
      rw [ha a (by simp)] at this
      cases this
    | cons c cs =>
      simp only [List.cons_append, List.cons.injEq] at h
      obtain ⟨rfl, h⟩ := h
      obtain ⟨rfl, h2⟩ := ih (fun c hc => ha c (by simp [hc])) (fun c h => hc c (by simp [h])) h
      exact ⟨rfl, h2⟩

namespace IdHelper

/-- The text of the stack as characters. -/
def suffixChars : List Nat → List Char
  | [] => []
  | i :: is => '.' :: 't' :: (Nat.toDigits 10 (i + 1) ++ suffixChars is)

theorem suffix_toList (s : List Nat) : (suffix s).toList = suffixChars s := by
  induction s with
  | nil => rfl
  | cons i is ih =>
    simp only [suffix, suffixChars, String.toList_append, ih, Nat.toString_eq_repr, Nat.toList_repr]
    rfl

theorem suffixChars_head (s : List Nat) (c : Char) (h : (suffixChars s).head? = some c) : c.isDigit = false := by
  cases s with
  | nil => simp [suffixChars] at h
  | cons i is =>
    simp only [suffixChars, List.head?_cons, Option.some.injEq] at h
    subst h; rfl

theorem suffixChars_inj {s t : List Nat} (h : suffixChars s = suffixChars t) : s = t := by
  induction s generalizing t with
  | nil => cases t with
    | nil => rfl
    | cons => simp [suffixChars] at h
  | cons i is ih =>
    cases t with
    | nil => simp [suffixChars] at h
    | cons j js =>
      simp only [suffixChars, List.cons.injEq, true_and] at h
      obtain ⟨h1, h2⟩ := digits_split
        (fun c hc => Nat.isDigit_of_mem_toDigits (by omega) (by omega) hc)
        (fun c hc => Nat.isDigit_of_mem_toDigits (by omega) (by omega) hc)
        (suffixChars_head is) (suffixChars_head js) h
      have := toDigits_inj h1
      rw [ih h2, show i = j by omega]

theorem id_inj {r : String} {s t : List Nat} (h : r ++ suffix s = r ++ suffix t) : s = t := by
  have := congrArg String.toList h
  simp only [String.toList_append, suffix_toList, List.append_cancel_left_eq] at this
  exact suffixChars_inj this

/-- The stack of `q` lies before the stack `s`: smaller at the first difference. -/
def Before : List Nat → List Nat → Prop
  | a :: as, b :: bs => a < b ∨ (a = b ∧ Before as bs)
  | _, _ => False

theorem Before.push {q s t : List Nat} (h : Before q s) : Before q (s ++ t) := by
  induction q generalizing s with
  | nil => simp [Before] at h
  | cons a q ih =>
    cases s with
    | nil => simp [Before] at h
    | cons b s => exact h.imp id fun h => ⟨h.1, ih h.2⟩

theorem Before.ne {q s : List Nat} (h : Before q s) : q ≠ s := by
  rintro rfl
  induction q with
  | nil => simp [Before] at h
  | cons a q ih =>
    rcases h with h | h
    · omega
    · exact ih h.2

theorem bump_length {s t : List Nat} (h : bump s = some t) : t.length = s.length := by
  induction s generalizing t with
  | nil => simp [bump] at h
  | cons a s ih =>
    cases s with
    | nil => simp [bump] at h; subst h; rfl
    | cons b s =>
      simp only [bump, Option.map_eq_some_iff] at h
      obtain ⟨u, hu, rfl⟩ := h
      simpa using ih hu

theorem bump_isSome {s : List Nat} (h : s ≠ []) : ∃ t, bump s = some t := by
  induction s with
  | nil => exact absurd rfl h
  | cons a s ih =>
    cases s with
    | nil => exact ⟨_, rfl⟩
    | cons b s =>
      obtain ⟨t, ht⟩ := ih (by simp)
      exact ⟨a :: t, by simp [bump, ht]⟩

/-- After the increment everything that was before stays before, and so does the old stack with all extensions. -/
theorem bump_before {s t : List Nat} (h : bump s = some t) : ∀ e, Before (s ++ e) t := by
  induction s generalizing t with
  | nil => simp [bump] at h
  | cons a s ih =>
    cases s with
    | nil => simp only [bump, Option.some.injEq] at h; subst h; intro e; exact Or.inl (by omega)
    | cons b s =>
      simp only [bump, Option.map_eq_some_iff] at h
      obtain ⟨u, hu, rfl⟩ := h
      intro e; exact Or.inr ⟨rfl, ih hu e⟩

theorem before_bump {q s t : List Nat} (h : bump s = some t) (hq : Before q s) : Before q t := by
  induction s generalizing q t with
  | nil => simp [bump] at h
  | cons a s ih =>
    cases s with
    | nil =>
      simp only [bump, Option.some.injEq] at h
      subst h
      cases q with
      | nil => simp [Before] at hq
      | cons c q =>
        rcases hq with hq | hq
        · exact Or.inl (by omega)
        · cases q <;> simp [Before] at hq
    | cons b s =>
      simp only [bump, Option.map_eq_some_iff] at h
      obtain ⟨u, hu, rfl⟩ := h
      cases q with
      | nil => simp [Before] at hq
      | cons c q => exact hq.imp id fun h => ⟨h.1, ih hu h.2⟩

/-- Dropping the last element: what was before the longer stack is before the shorter one or extends it. -/
theorem before_dropLast {q s : List Nat} {x : Nat} (h : Before q (s ++ [x])) : Before q s ∨ ∃ y e, q = s ++ y :: e := by
  induction s generalizing q with
  | nil =>
    cases q with
    | nil => simp [Before] at h
    | cons c q => exact Or.inr ⟨c, q, rfl⟩
  | cons a s ih =>
    cases q with
    | nil => simp [Before] at h
    | cons c q =>
      rcases h with h | ⟨rfl, h⟩
      · exact Or.inl (Or.inl h)
      · rcases ih h with h | ⟨y, e, rfl⟩
        · exact Or.inl (Or.inr ⟨rfl, h⟩)
        · exact Or.inr ⟨y, e, rfl⟩

end IdHelper

end Carcara
