import Verif.Props.C46Re
import Verif.Spec.StringWitness

/-!
# C46: the length of regular expressions

`str_fixed_len_re` computes the length that all words of a language have. The rules that use it stay sound with any other positive length, so
this is stated on its own.
-/

namespace Carcara

open Spec

namespace C46

open Computability

variable {M : Model} {L : Val M.I.U → Language Char}

private theorem fixedLen_length (hS : StringTheory M.I L) (r : Term) : ∀ {n : ℕ} {w : List Char},
    (∀ s, .const (.str s) ∈ r.subterms → s.utf8ByteSize = s.length) → fixedLen r = .ok n → sortOf r = some .regLan → w ∈ L (M.val r) →
    w.length = n := by
  induction r using Term.ind with
  | op o as ih0 =>
    intro n w hb h hs hm
    have ih : ∀ a ∈ as, ∀ {n : ℕ} {w : List Char}, fixedLen a = .ok n → sortOf a = some .regLan → w ∈ L (M.val a) → w.length = n :=
      fun a ha n w h1 h2 h3 => ih0 a ha (fun s hs => hb s (subterms_op ha _ hs)) h1 h2 h3
    clear ih0
    by_cases h1 : o = .reConcat
    · subst h1
      have hall := (sort_reConcat (.inl rfl) hs).2.2
      simp only [fixedLen, bind_ok, ok_inj, fixedLenL_map] at h
      obtain ⟨ns, h, rfl⟩ := h
      rw [lang_concat hS hall] at hm
      have hf := mapRes_ok.1 h
      clear h hs hb
      rw [List.forall₂_map_left_iff] at hf
      induction hf generalizing w with
      | nil =>
        have : w ∈ (1 : Language Char) := hm
        rw [Language.mem_one] at this
        simp [this]
      | @cons a m as ms ha _ ih' =>
        rw [List.map_cons, List.prod_cons, Language.mem_mul] at hm
        obtain ⟨w1, h1, w2, h2, rfl⟩ := hm
        rw [List.length_append, List.sum_cons, ih a (by simp) ha (hall a (by simp)) h1,
          ih' (fun b hb => ih b (by simp [hb])) h2 (fun b hb => hall b (by simp [hb]))]
    by_cases h2 : o = .reUnion
    · subst h2
      have hall := (sort_reConcat (.inr (.inl rfl)) hs).2.2
      simp only [fixedLen] at h
      obtain ⟨-, h⟩ := sameLength_ok h
      rw [Model.val_op] at hm
      have hm : ∃ a ∈ as, w ∈ L (M.val a) := by
        have := (hS.union (as.map M.val) (by
          intro r hr
          obtain ⟨a, ha, rfl⟩ := List.mem_map.1 hr
          exact eval_dom a (hall a ha) M.env_dom) w).1 hm
        obtain ⟨r, hr, h⟩ := this
        obtain ⟨a, ha, rfl⟩ := List.mem_map.1 hr
        exact ⟨a, ha, h⟩
      obtain ⟨a, ha, hm⟩ := hm
      cases hop : a.isOp .reNone with
      | true =>
        obtain ⟨bs, rfl⟩ := isOp_iff.1 hop
        obtain ⟨-, h'⟩ := sort_fixed (ss := []) (r := .regLan) (by decide) (fun _ => rfl) (hall _ ha)
        cases bs with
        | nil =>
          rw [Model.val_op] at hm
          have : L (M.I.op .reNone []) = 0 := hS.none
          exact absurd (this ▸ hm : w ∈ (0 : Language Char)) (Language.notMem_zero _)
        | cons b bs => obtain ⟨_, _, e, _⟩ := sortOfL_cons.1 h'; cases e
      | false => exact ih a ha (h _ (mem_fixedLenSkip.2 ⟨a, ha, hop, rfl⟩)) (hall a ha) hm
    by_cases h3 : o = .reInter
    · subst h3
      have hall := (sort_reConcat (.inr (.inr rfl)) hs).2.2
      simp only [fixedLen] at h
      obtain ⟨hne, h⟩ := sameLength_ok h
      rw [Model.val_op] at hm
      have hm : ∀ a ∈ as, w ∈ L (M.val a) := by
        intro a ha
        exact (hS.inter (as.map M.val) (by
          intro r hr
          obtain ⟨a, ha, rfl⟩ := List.mem_map.1 hr
          exact eval_dom a (hall a ha) M.env_dom) w).1 hm _ (List.mem_map.2 ⟨a, ha, rfl⟩)
      obtain ⟨x, hx⟩ := List.exists_mem_of_ne_nil _ hne
      obtain ⟨a, ha, hop, rfl⟩ := mem_fixedLenSkip.1 hx
      exact ih a ha (h _ hx) (hall a ha) (hm a ha)
    by_cases h4 : o = .reAllChar
    · subst h4
      obtain ⟨-, h'⟩ := sort_fixed (ss := []) (r := .regLan) (by decide) (fun _ => rfl) hs
      cases as with
      | nil =>
        simp only [fixedLen, ok_inj] at h
        rw [(hS.allChar w).1 hm, h]
      | cons b bs => obtain ⟨_, _, e, _⟩ := sortOfL_cons.1 h'; cases e
    by_cases h5 : o = .reRange
    · subst h5
      obtain ⟨-, h'⟩ := sort_fixed (ss := [.string, .string]) (r := .regLan) (by decide) (fun _ => rfl) hs
      match as, h' with
      | [], h' => simp [sortOfL] at h'
      | [_], h' => obtain ⟨_, _, e, _, h'⟩ := sortOfL_cons.1 h'; cases e; simp [sortOfL] at h'
      | [a, b], h' =>
        obtain ⟨_, _, e, ha, h'⟩ := sortOfL_cons.1 h'
        cases e
        obtain ⟨_, _, e, hb, h'⟩ := sortOfL_cons.1 h'
        cases e
        rw [Model.val_op, List.map_cons, List.map_cons, val_str ha, val_str hb] at hm
        obtain ⟨_, _, _, _, _, rfl, _⟩ := (hS.range _ _ _).1 hm
        simp only [fixedLen, ok_inj] at h
        rw [← h]
        rfl
      | _ :: _ :: _ :: _, h' =>
        obtain ⟨_, _, e, ha, h'⟩ := sortOfL_cons.1 h'
        cases e
        obtain ⟨_, _, e, hb, h'⟩ := sortOfL_cons.1 h'
        cases e
        obtain ⟨_, _, e, hb, h'⟩ := sortOfL_cons.1 h'
        cases e
    by_cases h6 : o = .strToRe
    · subst h6
      obtain ⟨-, h'⟩ := sort_fixed (ss := [.string]) (r := .regLan) (by decide) (fun _ => rfl) hs
      simp only [fixedLen] at h
      split at h
      · next s rest =>
        cases rest with
        | cons b bs =>
          obtain ⟨_, _, e, _, h'⟩ := sortOfL_cons.1 h'
          cases e
          obtain ⟨_, _, e, _⟩ := sortOfL_cons.1 h'
          cases e
        | nil =>
          simp only [ok_inj] at h
          subst h
          rw [Model.val_op, List.map_cons, val_str rfl] at hm
          have h2 : L (M.I.op .strToRe [strV (M.str (.const (.str s)))]) = {M.str (.const (.str s))} := hS.toRe _
          have h3 : w ∈ ({M.str (.const (.str s))} : Language Char) := h2 ▸ hm
          have h4 : w = s.toList := h3
          rw [h4, String.length_toList]
          exact (hb s (subterms_op (by simp) _ (Term.self_mem_subterms _))).symm
      · simp [panic] at h
      · simp [err] at h
    · rw [fixedLen.eq_def] at h
      cases o <;> first | contradiction | (simp [err] at h)
  | _ => intro n w _ h; simp [fixedLen, err] at h


/-- **C46**, partial: all words of a language have the computed length. Missing: constants with characters of more than one byte, for which it
fails (`c46_fixed_length_fails`). -/
theorem c46_fixed_length_partial (r : Term) (n : ℕ) (h : fixedLen r = .ok n) (hr : sortOf r = some .regLan)
    (hb : ∀ s, .const (.str s) ∈ r.subterms → s.utf8ByteSize = s.length) (M : Model) (L : Val M.I.U → Language Char) (hS : StringTheory M.I L)
    (w : List Char) (hw : w ∈ L (M.val r)) : w.length = n :=
  fixedLen_length hS r hb h hr hw

/-- Two digits or one of three words. -/
example :
    let r : Term := .op .reUnion [.op .reConcat [.op .reRange [lit "0", lit "9"], .op .reAllChar []], .op .reNone [], .op .strToRe [lit "ab"]]
    fixedLen r = .ok 2 ∧ sortOf r = some .regLan ∧ ∀ s, .const (.str s) ∈ r.subterms → s.utf8ByteSize = s.length := by
  refine ⟨by decide +kernel, by decide +kernel, fun s hs => ?_⟩
  simp only [lit, Term.subterms, Term.subtermsL, List.append_nil, List.cons_append, List.nil_append, List.mem_cons, reduceCtorEq, false_or,
    Term.const.injEq, Const.str.injEq, List.not_mem_nil, or_false] at hs
  rcases hs with rfl | rfl | rfl <;> decide +kernel

/-- Languages of different lengths have no common length. -/
example : fixedLen (.op .reUnion [.op .strToRe [lit "a"], .op .strToRe [lit "ab"]]) = err := by decide +kernel

/-- **C46**, refuted for characters of more than one byte: the length of `é` is computed as two. -/
theorem c46_fixed_length_fails : ¬ ∀ (r : Term) (n : ℕ), fixedLen r = .ok n → sortOf r = some .regLan → ∀ (M : Model)
    (L : Val M.I.U → Language Char), StringTheory M.I L → ∀ w ∈ L (M.val r), w.length = n := by
  intro h
  have := h (.op .strToRe [lit "é"]) 2 (by decide +kernel) (by decide +kernel) (StringWitness.model fun _ _ => strV []) StringWitness.lang
    StringWitness.theory ['é'] (by
      rw [Model.val_op]
      have : (StringWitness.model fun _ _ => strV []).val (lit "é") = strV ['é'] := by
        show Val.str "é" = Val.str (String.ofList ['é'])
        exact congrArg Val.str (by decide +kernel)
      rw [List.map_cons, List.map_nil, this]
      have e := StringWitness.theory.toRe ['é']
      exact e ▸ rfl)
  simp at this

end C46

end Carcara
