import Verif.Lemmas.MapRes
import Verif.Props.C46

/-! # C46: rules for regular expressions -/

namespace Carcara

open Spec

namespace C46

open Computability

/-- The model with another value for the variable `L`. -/
def setL (M : Model) (z : ℤ) : Model :=
  ⟨M.I, M.env.set "L" .int (.int z), Interp.EnvOK.set M.env_dom ((M.I.dom_int _).2 ⟨z, rfl⟩)⟩

section
variable {M : Model} {L : Val M.I.U → Language Char}

theorem holds_allL {body : Term} : M.Holds (.binder .all [("L", .int)] body) ↔ ∀ z, (setL M z).Holds body := by
  rw [Model.Holds, Model.val, eval, evalBinder, Val.T_prop]
  constructor
  · intro h z
    exact h [.int z] (.cons ((M.I.dom_int _).2 ⟨z, rfl⟩) .nil)
  · intro h vs hvs
    rcases hvs with _ | ⟨h1, _ | _⟩
    obtain ⟨z, rfl⟩ := (M.I.dom_int _).1 h1
    exact h z

theorem setL_val {t : Term} (ht : (sortOf t).isSome = true) (hf : ("L", Srt.int) ∉ t.fv) (z : ℤ) : (setL M z).val t = M.val t := by
  refine eval_congr_fv t (t.choiceOK_of_sort ht) (.inr (setL M z).env_dom) ?_
  rintro ⟨x, s⟩ hx
  have : ¬ (x = "L" ∧ s = .int) := by rintro ⟨rfl, rfl⟩; exact hf hx
  simp [setL, Env.set, this]

theorem setL_var (z : ℤ) : (setL M z).val (.var "L" .int) = .int z := by
  simp [setL, Model.val, eval, Env.set]

theorem sortOfL_replicate {s : Srt} : ∀ {ts : List Term}, (∀ t ∈ ts, sortOf t = some s) → sortOfL ts = some (List.replicate ts.length s)
  | [], _ => rfl
  | t :: ts, h => sortOfL_cons.2 ⟨s, _, rfl, h t (by simp), sortOfL_replicate fun u hu => h u (by simp [hu])⟩

/-- The language of a concatenation. -/
theorem lang_concat (hS : StringTheory M.I L) {as : List Term} (h : ∀ a ∈ as, sortOf a = some .regLan) :
    L (M.val (.op .reConcat as)) = (as.map fun a => L (M.val a)).prod := by
  rw [Model.val_op]
  have := hS.reConcat (as.map M.val) (by
    intro r hr
    obtain ⟨a, ha, rfl⟩ := List.mem_map.1 hr
    exact eval_dom a (h a ha) M.env_dom)
  rw [List.map_map] at this
  exact this

theorem singleton_elim (hS : StringTheory M.I L) {as : List Term} (h : ∀ a ∈ as, sortOf a = some .regLan) (hn : as ≠ []) :
    sortOf (singletonElim as) = some .regLan ∧ L (M.val (singletonElim as)) = (as.map fun a => L (M.val a)).prod := by
  match as, hn with
  | [a], _ => exact ⟨h a (by simp), by simp [singletonElim]⟩
  | a :: b :: as, _ =>
    refine ⟨?_, lang_concat hS h⟩
    have e : sortOf (.op .reConcat (a :: b :: as)) = match sortOfL (a :: b :: as) with
      | some ss => opSort .reConcat ss
      | none => none := by rw [sortOf]; · rfl
                           · decide
    rw [singletonElim]
    · rw [e, sortOfL_replicate h]
      simp only [opSort]
      rw [if_pos]
      exact ⟨by simp, allSort_iff.2 fun t ht => (List.mem_replicate.1 ht).2⟩
    · simp

theorem lang_star (hS : StringTheory M.I L) {r : Term} (h : sortOf r = some .regLan) : L (M.val (.op .reStar [r])) = (L (M.val r))∗ := by
  rw [Model.val_op]; exact hS.star _ (eval_dom r h M.env_dom)

theorem holds_notIn (hS : StringTheory M.I L) {t r : Term} {w : List Char} (ht : M.val t = strV w) (hr : sortOf r = some .regLan) :
    M.Holds (notIn t r) ↔ w ∉ L (M.val r) := by
  rw [notIn, Model.holds_not, holds_strInRe hS ht hr]

/-- If the empty string is in a concatenation, it is in all parts. -/
theorem nil_mem_prod : ∀ {ls : List (Language Char)}, [] ∈ ls.prod → ∀ l ∈ ls, [] ∈ l
  | [], _ => by simp
  | l :: ls, h => by
    rw [List.prod_cons, Language.mem_mul] at h
    obtain ⟨a, ha, b, hb, hab⟩ := h
    obtain ⟨rfl, rfl⟩ := List.append_eq_nil_iff.1 hab
    intro m hm
    rcases List.mem_cons.1 hm with rfl | hm
    · exact ha
    · exact nil_mem_prod hb m hm

theorem allLength_ok {n : ℕ} : ∀ {xs : List (Res ℕ)}, allLength n xs = .ok () → ∀ x ∈ xs, x = .ok n
  | [], _ => by simp
  | x :: xs, h => by
    simp only [allLength, bind_ok, require_ok] at h
    obtain ⟨m, rfl, -, rfl, h⟩ := h
    intro y hy
    rcases List.mem_cons.1 hy with rfl | hy
    · rfl
    · exact allLength_ok h y hy

theorem sameLength_ok {n : ℕ} {xs : List (Res ℕ)} (h : sameLength xs = .ok n) : xs ≠ [] ∧ ∀ x ∈ xs, x = .ok n := by
  cases xs with
  | nil => simp [sameLength, err] at h
  | cons x xs =>
    simp only [sameLength, bind_ok, ok_inj] at h
    obtain ⟨m, rfl, _, h, rfl⟩ := h
    refine ⟨by simp, fun y hy => ?_⟩
    rcases List.mem_cons.1 hy with rfl | hy
    · rfl
    · exact allLength_ok h y hy

theorem mem_fixedLenSkip {o : Op} {x : Res ℕ} : ∀ {as : List Term}, x ∈ fixedLenSkip o as ↔ ∃ a ∈ as, a.isOp o = false ∧ x = fixedLen a
  | [] => by simp [fixedLenSkip]
  | a :: as => by
    rw [fixedLenSkip]
    split
    · next h => rw [mem_fixedLenSkip]; simp [h]
    · next h => rw [List.mem_cons, mem_fixedLenSkip]; simp [h]

theorem fixedLenL_map : ∀ as : List Term, fixedLenL as = as.map fixedLen
  | [] => rfl
  | a :: as => by rw [fixedLenL, fixedLenL_map as]; rfl

theorem isOp_iff {o : Op} {t : Term} : t.isOp o = true ↔ ∃ as, t = .op o as := by
  cases t <;> simp [Term.isOp]

/-- If a regular expression of fixed length matches the empty string, the length is zero. -/
theorem fixedLen_nil (hS : StringTheory M.I L) (r : Term) : ∀ {n : ℕ}, fixedLen r = .ok n → sortOf r = some .regLan → [] ∈ L (M.val r) → n = 0 := by
  induction r using Term.ind with
  | op o as ih =>
    intro n h hs hm
    by_cases h1 : o = .reConcat
    · subst h1
      have hall := (sort_reConcat (.inl rfl) hs).2.2
      simp only [fixedLen, bind_ok, ok_inj, fixedLenL_map] at h
      obtain ⟨ns, h, rfl⟩ := h
      rw [lang_concat hS hall] at hm
      have hm' := nil_mem_prod hm
      have hf := mapRes_ok.1 h
      refine List.sum_eq_zero fun k hk => ?_
      clear h hm hs
      rw [List.forall₂_map_left_iff] at hf
      induction hf with
      | nil => simp at hk
      | @cons a m as ms ha _ ih' =>
        rcases List.mem_cons.1 hk with rfl | hk
        · exact ih a (by simp) ha (hall a (by simp)) (hm' _ (by simp))
        · exact ih' (fun b hb => ih b (by simp [hb])) (fun b hb => hall b (by simp [hb])) (fun l hl => hm' l (by simp at hl ⊢; exact .inr hl)) hk
    by_cases h2 : o = .reUnion
    · subst h2
      have hall := (sort_reConcat (.inr (.inl rfl)) hs).2.2
      simp only [fixedLen] at h
      obtain ⟨-, h⟩ := sameLength_ok h
      rw [Model.val_op] at hm
      have hm : ∃ a ∈ as, [] ∈ L (M.val a) := by
        have := (hS.union (as.map M.val) (by
          intro r hr
          obtain ⟨a, ha, rfl⟩ := List.mem_map.1 hr
          exact eval_dom a (hall a ha) M.env_dom) []).1 hm
        obtain ⟨r, hr, h⟩ := this
        obtain ⟨a, ha, rfl⟩ := List.mem_map.1 hr
        exact ⟨a, ha, h⟩
      obtain ⟨a, ha, hm⟩ := hm
      cases hop : a.isOp .reNone with
      | true =>
        obtain ⟨bs, rfl⟩ := isOp_iff.1 hop
        obtain ⟨-, h'⟩ := sort_fixed (ss := []) (r := .regLan) (by decide) (fun _ => rfl) (hall _ ha)
        cases bs with
        | nil =>
          rw [Model.val_op] at hm
          have : L (M.I.op .reNone []) = 0 := hS.none
          exact absurd (this ▸ hm : [] ∈ (0 : Language Char)) (Language.notMem_zero _)
        | cons b bs => obtain ⟨_, _, e, _⟩ := sortOfL_cons.1 h'; cases e
      | false => exact ih a ha (h _ (mem_fixedLenSkip.2 ⟨a, ha, hop, rfl⟩)) (hall a ha) hm
    by_cases h3 : o = .reInter
    · subst h3
      have hall := (sort_reConcat (.inr (.inr rfl)) hs).2.2
      simp only [fixedLen] at h
      obtain ⟨hne, h⟩ := sameLength_ok h
      rw [Model.val_op] at hm
      have hm : ∀ a ∈ as, [] ∈ L (M.val a) := by
        intro a ha
        exact (hS.inter (as.map M.val) (by
          intro r hr
          obtain ⟨a, ha, rfl⟩ := List.mem_map.1 hr
          exact eval_dom a (hall a ha) M.env_dom) []).1 hm _ (List.mem_map.2 ⟨a, ha, rfl⟩)
      obtain ⟨x, hx⟩ := List.exists_mem_of_ne_nil _ hne
      obtain ⟨a, ha, hop, rfl⟩ := mem_fixedLenSkip.1 hx
      exact ih a ha (h _ hx) (hall a ha) (hm a ha)
    by_cases h4 : o = .reAllChar
    · subst h4
      obtain ⟨-, h'⟩ := sort_fixed (ss := []) (r := .regLan) (by decide) (fun _ => rfl) hs
      cases as with
      | nil => exact absurd ((hS.allChar []).1 hm) (by simp)
      | cons b bs => obtain ⟨_, _, e, _⟩ := sortOfL_cons.1 h'; cases e
    by_cases h5 : o = .reRange
    · subst h5
      obtain ⟨-, h'⟩ := sort_fixed (ss := [.string, .string]) (r := .regLan) (by decide) (fun _ => rfl) hs
      match as, h' with
      | [], h' => simp [sortOfL] at h'
      | [_], h' => obtain ⟨_, _, e, _, h'⟩ := sortOfL_cons.1 h'; cases e; simp [sortOfL] at h'
      | [a, b], h' =>
        obtain ⟨_, _, e, ha, h'⟩ := sortOfL_cons.1 h'
        cases e
        obtain ⟨_, _, e, hb, h'⟩ := sortOfL_cons.1 h'
        cases e
        rw [Model.val_op, List.map_cons, List.map_cons, val_str ha, val_str hb] at hm
        obtain ⟨_, _, _, _, _, h, _⟩ := (hS.range _ _ _).1 hm
        cases h
      | _ :: _ :: _ :: _, h' =>
        obtain ⟨_, _, e, ha, h'⟩ := sortOfL_cons.1 h'
        cases e
        obtain ⟨_, _, e, hb, h'⟩ := sortOfL_cons.1 h'
        cases e
        obtain ⟨_, _, e, hb, h'⟩ := sortOfL_cons.1 h'
        cases e
    by_cases h6 : o = .strToRe
    · subst h6
      obtain ⟨-, h'⟩ := sort_fixed (ss := [.string]) (r := .regLan) (by decide) (fun _ => rfl) hs
      simp only [fixedLen] at h
      split at h
      · next s rest =>
        cases rest with
        | cons b bs =>
          obtain ⟨_, _, e, _, h'⟩ := sortOfL_cons.1 h'
          cases e
          obtain ⟨_, _, e, _⟩ := sortOfL_cons.1 h'
          cases e
        | nil =>
          simp only [ok_inj] at h
          subst h
          rw [Model.val_op, List.map_cons, val_str rfl] at hm
          have h2 : L (M.I.op .strToRe [strV (M.str (.const (.str s)))]) = {M.str (.const (.str s))} := hS.toRe _
          have h3 : [] ∈ ({M.str (.const (.str s))} : Language Char) := h2 ▸ hm
          have h4 : [] = M.str (.const (.str s)) := h3
          have h5 : M.str (.const (.str s)) = s.toList := rfl
          rw [h5] at h4
          have : s = "" := by rw [← String.toList_eq_nil_iff]; exact h4.symm
          subst this
          rfl
      · simp [panic] at h
      · simp [err] at h
    · rw [fixedLen.eq_def] at h
      cases o <;> first | contradiction | (simp [err] at h)
  | _ => intro n h; simp [fixedLen, err] at h

/-- The pieces of a concatenation are strings, and together they are the string. -/
theorem concatExtract_str (hS : StringTheory M.I L) (t : Term) : sortOf t = some .string →
    (∀ u ∈ concatExtract t, sortOf u = some .string) ∧ M.strs (concatExtract t) = M.str t := by
  induction t using Term.ind with
  | const c =>
    intro ht
    cases c with
    | str s =>
      rw [concatExtract]
      split
      · next h => subst h; exact ⟨by simp, rfl⟩
      · exact ⟨by simp [ht], by simp⟩
    | _ => simp only [concatExtract]; exact ⟨by simp [ht], by simp⟩
  | op o as ih =>
    intro ht
    by_cases ho : o = .strConcat
    · subst ho
      have hall := (sort_strConcat ht).2.2
      have key : ∀ bs : List Term, (∀ b ∈ bs, b ∈ as) → (∀ u ∈ concatExtractL bs, sortOf u = some .string) ∧ M.strs (concatExtractL bs) = M.strs bs := by
        intro bs
        induction bs with
        | nil => intro _; exact ⟨by simp [concatExtractL], rfl⟩
        | cons b bs ih' =>
          intro hb
          obtain ⟨h1, h2⟩ := ih b (hb b (by simp)) (hall b (hb b (by simp)))
          obtain ⟨h3, h4⟩ := ih' fun c hc => hb c (by simp [hc])
          rw [concatExtractL]
          refine ⟨fun u hu => ?_, by simp [h2, h4]⟩
          rcases List.mem_append.1 hu with hu | hu
          · exact h1 u hu
          · exact h3 u hu
      rw [concatExtract]
      obtain ⟨h1, h2⟩ := key as fun _ h => h
      refine ⟨h1, h2.trans ?_⟩
      rw [str_of_val (val_strConcat hS fun t ht => ⟨_, val_str (hall t ht)⟩)]
    · have : concatExtract (.op o as) = [.op o as] := by rw [concatExtract.eq_def]; cases o <;> first | rfl | exact absurd rfl ho
      rw [this]; exact ⟨by simp [ht], by simp⟩
  | _ => intro ht; simp only [concatExtract]; exact ⟨by simp [ht], by simp⟩

theorem sort_concat2 {a b : Term} (ha : sortOf a = some .string) (hb : sortOf b = some .string) : sortOf (.op .strConcat [a, b]) = some .string := by
  have e : sortOf (.op .strConcat [a, b]) = match sortOfL [a, b] with
      | some ss => opSort .strConcat ss
      | none => none := by rw [sortOf]; · rfl
                           · decide
  rw [e, sortOfL_replicate (s := .string) (by simp [ha, hb])]
  rfl

theorem lang_toRe (hS : StringTheory M.I L) {s : Term} (hs : sortOf s = some .string) : L (M.val (.op .strToRe [s])) = {M.str s} := by
  rw [Model.val_op, List.map_cons, val_str hs]; exact hS.toRe _

/-- Unfolding a concatenation of constants. -/
theorem unfoldPos_constants (hS : StringTheory M.I L) (t : Term) : ∀ (as : List Term) (n : ℕ) {u : Unfolded}, (∀ a ∈ as, ∃ s, a = .op .strToRe [s]) →
    (∀ a ∈ as, sortOf a = some .regLan) → unfoldPos t n as = .ok u →
    u.m = .op .tru [] ∧ sortOf u.c = some .string ∧ (as.map fun a => L (M.val a)).prod = {M.str u.c}
  | [], _, u, _, _, h => by
    simp only [unfoldPos, ok_inj] at h
    subst h
    exact ⟨rfl, rfl, rfl⟩
  | a :: as, n, u, hk, hs, h => by
    simp only [unfoldPos, bind_ok] at h
    obtain ⟨v, hv, h⟩ := h
    obtain ⟨h1, h2, h3⟩ := unfoldPos_constants hS t as (n + 1) (fun b hb => hk b (by simp [hb])) (fun b hb => hs b (by simp [hb])) hv
    obtain ⟨s, rfl⟩ := hk a (by simp)
    have hsa := hs (.op .strToRe [s]) (by simp)
    have hss : sortOf s = some .string := by
      obtain ⟨-, h'⟩ := sort_fixed (ss := [.string]) (r := .regLan) (by decide) (fun _ => rfl) hsa
      obtain ⟨_, _, e, h', _⟩ := sortOfL_cons.1 h'
      cases e
      exact h'
    simp only [ok_inj] at h
    subst h
    refine ⟨h1, sort_concat2 hss h2, ?_⟩
    rw [List.map_cons, List.prod_cons, h3, lang_toRe hS hss, str_of_val (val_strConcat2 hS (val_str hss) (val_str h2))]
    ext w
    rw [Language.mem_mul]
    constructor
    · rintro ⟨a, rfl, b, rfl, rfl⟩; rfl
    · rintro rfl; exact ⟨_, rfl, _, rfl, rfl⟩

end

end C46

open C46

/-- **C46**, `re_unfold_neg`. -/
theorem c46_re_unfold_neg_partial : SoundStr reUnfoldNeg NoCapture := by
  intro conclusion premises args h hc hp ha hcond M ⟨L, hS⟩ hprem
  simp only [reUnfoldNeg, premTerm, bind_ok, get1_ok, match1_ok, match2_ok, assertEq_ok, Prod.exists] at h
  obtain ⟨p, rfl, c, rfl, term, rfl, m, rfl, t, r, rfl, e, he, rfl⟩ := h
  obtain ⟨-, ht, hr⟩ := sort_strInRe (bool_children (.inl rfl) (ok_one hp) _ (List.mem_singleton.2 rfl))
  have hfv := hcond _ (List.mem_singleton.2 rfl) _ (List.mem_singleton.2 rfl)
  have hft : ("L", Srt.int) ∉ t.fv := fun h => hfv (by simp [Term.fv, Term.fvL, h])
  have hfr : ("L", Srt.int) ∉ r.fv := fun h => hfv (by simp [Term.fv, Term.fvL, h])
  have hw : M.str t ∉ L (M.val r) := (holds_notIn hS (val_str ht) hr).1 (prem_one hprem)
  have vt : ∀ z, (setL M z).val t = strV (M.str t) := fun z => (setL_val (some_isSome ht) hft z).trans (val_str ht)
  rw [Model.sat_singleton]
  unfold unfoldNegExpected at he
  split at he
  · next r1 as =>
    simp only [ok_inj] at he
    subst he
    obtain ⟨-, rfl, hr1⟩ := sort_reStar hr
    have hfr1 : ("L", Srt.int) ∉ r1.fv := fun h => hfr (by simp [Term.fv, Term.fvL, h])
    rw [lang_star hS hr1] at hw
    rw [Model.holds_and]
    simp only [List.mem_cons, List.not_mem_nil, or_false, forall_eq_or_imp, forall_eq, Model.holds_not, Model.holds_eq, val_emptyStr, holds_allL]
    refine ⟨?_, fun z => ?_⟩
    · rw [val_str ht, strV_inj]
      intro h
      rw [h] at hw
      exact hw (Language.nil_mem_kstar _)
    · rw [Model.holds_or]
      by_cases h1 : z ≤ 0
      · exact ⟨_, by simp, (holds_le (setL_var z) (val_intTerm 0)).2 h1⟩
      by_cases h2 : ((M.str t).length : ℤ) < z
      · exact ⟨_, List.mem_cons_of_mem _ (by simp), (holds_lt (val_strLen (M := setL M z) hS (vt z)) (setL_var z)).2 h2⟩
      by_cases h3 : (M.str t).take z.toNat ∈ L (M.val r1)
      · refine ⟨notIn (skolemSuffixRem t (.var "L" .int)) (.op .reStar [r1]), by simp, ?_⟩
        rw [holds_notIn (M := setL M z) hS (val_skolemSuffixRem (M := setL M z) hS (vt z) (setL_var z) (by omega)) hr, setL_val (some_isSome hr) hfr z,
          lang_star hS hr1]
        intro h4
        refine hw ?_
        obtain ⟨l, hl, hl'⟩ := Language.mem_kstar.1 h4
        refine Language.mem_kstar.2 ⟨(M.str t).take z.toNat :: l, ?_, ?_⟩
        · rw [List.flatten_cons, ← hl, List.take_append_drop]
        · intro y hy
          rcases List.mem_cons.1 hy with rfl | hy
          · exact h3
          · exact hl' y hy
      · refine ⟨notIn (skolemPrefix t (.var "L" .int)) r1, by simp, ?_⟩
        rw [holds_notIn (M := setL M z) hS (val_skolemPrefix (M := setL M z) hS (vt z) (setL_var z)) hr1, setL_val (some_isSome hr1) hfr1 z]
        exact h3
  · next r1 rest =>
    simp only [ok_inj] at he
    subst he
    obtain ⟨-, hlen, hall⟩ := sort_reConcat (.inl rfl) hr
    have hr1 := hall r1 (by simp)
    have hne : rest ≠ [] := by rintro rfl; simp at hlen
    obtain ⟨hse, hle⟩ := singleton_elim hS (M := M) (as := rest) (fun a ha => hall a (by simp [ha])) hne
    have hfr1 : ("L", Srt.int) ∉ r1.fv := fun h => hfr (by simp [Term.fv, Term.fvL, h])
    have hfe : ("L", Srt.int) ∉ (singletonElim rest).fv := by
      intro h
      refine hfr ?_
      unfold singletonElim at h
      split at h
      · simp only [Term.fv, Term.mem_fvL]; exact ⟨_, by simp, h⟩
      · simp only [Term.fv, Term.mem_fvL] at h ⊢
        obtain ⟨a, ha, h⟩ := h
        exact ⟨a, by simp [ha], h⟩
    rw [lang_concat hS hall, List.map_cons, List.prod_cons, ← hle] at hw
    rw [holds_allL]
    intro z
    rw [Model.holds_or]
    by_cases h1 : z < 0
    · exact ⟨_, by simp, (holds_lt (setL_var z) (val_intTerm 0)).2 h1⟩
    by_cases h2 : ((M.str t).length : ℤ) < z
    · exact ⟨_, List.mem_cons_of_mem _ (by simp), (holds_lt (val_strLen (M := setL M z) hS (vt z)) (setL_var z)).2 h2⟩
    by_cases h3 : (M.str t).take z.toNat ∈ L (M.val r1)
    · refine ⟨notIn (skolemSuffixRem t (.var "L" .int)) (singletonElim rest), by simp, ?_⟩
      rw [holds_notIn (M := setL M z) hS (val_skolemSuffixRem (M := setL M z) hS (vt z) (setL_var z) (by omega)) hse, setL_val (some_isSome hse) hfe z]
      intro h4
      refine hw ?_
      have := Language.append_mem_mul h3 h4
      rwa [List.take_append_drop] at this
    · refine ⟨notIn (skolemPrefix t (.var "L" .int)) r1, by simp, ?_⟩
      rw [holds_notIn (M := setL M z) hS (val_skolemPrefix (M := setL M z) hS (vt z) (setL_var z)) hr1, setL_val (some_isSome hr1) hfr1 z]
      exact h3
  all_goals simp [err, panic] at he

example : Applies reUnfoldNeg NoCapture [.binder .all [("L", .int)] (.op .or [.op .lt [.var "L" .int, intTerm 0], .op .lt [strLenOf (sv "x"), .var "L" .int],
      notIn (skolemPrefix (sv "x") (.var "L" .int)) (.op .strToRe [lit "ab"]), notIn (skolemSuffixRem (sv "x") (.var "L" .int)) (.op .reAll [])])]
    [[notIn (sv "x") (.op .reConcat [.op .strToRe [lit "ab"], .op .reAll []])]] [] :=
  ⟨by decide +kernel, by unfold ClauseOK; decide +kernel, by unfold ClauseOK; decide +kernel, by decide +kernel, by unfold NoCapture; decide +kernel⟩

example : Applies reUnfoldNeg NoCapture [.op .and [.op .not [eqs (sv "x") emptyStr],
      .binder .all [("L", .int)] (.op .or [.op .le [.var "L" .int, intTerm 0], .op .lt [strLenOf (sv "x"), .var "L" .int],
        notIn (skolemPrefix (sv "x") (.var "L" .int)) (.op .strToRe [lit "ab"]), notIn (skolemSuffixRem (sv "x") (.var "L" .int)) (.op .reStar [.op .strToRe [lit "ab"]])])]]
    [[notIn (sv "x") (.op .reStar [.op .strToRe [lit "ab"]])]] [] :=
  ⟨by decide +kernel, by unfold ClauseOK; decide +kernel, by unfold ClauseOK; decide +kernel, by decide +kernel, by unfold NoCapture; decide +kernel⟩

/-- **C46**, `re_unfold_neg_concat_fixed_prefix`. -/
theorem c46_re_unfold_neg_concat_fixed_prefix : SoundStr (reUnfoldNegFixed false) Always := by
  intro conclusion premises args h hc hp ha halw M ⟨L, hS⟩ hprem
  simp only [reUnfoldNegFixed, premTerm, bind_ok, get1_ok, match1_ok, match2_ok, assertEq_ok, Prod.exists] at h
  obtain ⟨p, rfl, c, rfl, term, rfl, m, rfl, s, r, rfl, e, he, rfl⟩ := h
  obtain ⟨-, hs, hr⟩ := sort_strInRe (bool_children (.inl rfl) (ok_one hp) _ (List.mem_singleton.2 rfl))
  have hw : M.str s ∉ L (M.val r) := (holds_notIn hS (val_str hs) hr).1 (prem_one hprem)
  rw [Model.sat_singleton]
  unfold fixedExpected at he
  split at he
  · next as =>
    obtain ⟨-, hlen, hall⟩ := sort_reConcat (.inl rfl) hr
    match as, he with
    | [], he => simp [revIf, panic] at he
    | r1 :: rest, he =>
      simp only [revIf, Bool.false_eq_true, if_false, bind_ok, ok_inj] at he
      obtain ⟨n, hn, rfl⟩ := he
      have hr1 := hall r1 (by simp)
      have hne : rest ≠ [] := by rintro rfl; simp at hlen
      obtain ⟨hse, hle⟩ := singleton_elim hS (M := M) (as := rest) (fun a ha => hall a (by simp [ha])) hne
      rw [lang_concat hS hall, List.map_cons, List.prod_cons, ← hle] at hw
      rw [Model.holds_or]
      by_cases h3 : (M.str s).take n ∈ L (M.val r1)
      · refine ⟨notIn (skolemSuffixRem s (intTerm n)) (singletonElim rest), by simp, ?_⟩
        rw [holds_notIn hS (val_skolemSuffixRem hS (val_str hs) (val_intTerm n) (by omega)) hse, Int.toNat_natCast]
        intro h4
        refine hw ?_
        have := Language.append_mem_mul h3 h4
        rwa [List.take_append_drop] at this
      · refine ⟨notIn (skolemPrefix s (intTerm n)) r1, by simp, ?_⟩
        rw [holds_notIn hS (val_skolemPrefix hS (val_str hs) (val_intTerm n)) hr1, Int.toNat_natCast]
        exact h3
  · simp [err] at he

example : Applies (reUnfoldNegFixed false) Always [.op .or [notIn (skolemPrefix (sv "x") (intTerm 2)) (.op .strToRe [lit "ab"]), notIn (skolemSuffixRem (sv "x") (intTerm 2)) (.op .reAll [])]]
    [[notIn (sv "x") (.op .reConcat [.op .strToRe [lit "ab"], .op .reAll []])]] [] :=
  ⟨by decide +kernel, by unfold ClauseOK; decide +kernel, by unfold ClauseOK; decide +kernel, by decide +kernel, trivial⟩

/-- **C46**, `re_unfold_neg_concat_fixed_suffix`. -/
theorem c46_re_unfold_neg_concat_fixed_suffix : SoundStr (reUnfoldNegFixed true) Always := by
  intro conclusion premises args h hc hp ha halw M ⟨L, hS⟩ hprem
  simp only [reUnfoldNegFixed, premTerm, bind_ok, get1_ok, match1_ok, match2_ok, assertEq_ok, Prod.exists] at h
  obtain ⟨p, rfl, c, rfl, term, rfl, m, rfl, s, r, rfl, e, he, rfl⟩ := h
  obtain ⟨-, hs, hr⟩ := sort_strInRe (bool_children (.inl rfl) (ok_one hp) _ (List.mem_singleton.2 rfl))
  have hw : M.str s ∉ L (M.val r) := (holds_notIn hS (val_str hs) hr).1 (prem_one hprem)
  rw [Model.sat_singleton]
  unfold fixedExpected at he
  split at he
  · next as =>
    obtain ⟨-, hlen, hall⟩ := sort_reConcat (.inl rfl) hr
    match has : revIf true as, he with
    | [], he => simp [panic] at he
    | r1 :: rest, he =>
      simp only [revIf, if_true, bind_ok, ok_inj] at he has
      obtain ⟨n, hn, rfl⟩ := he
      obtain rfl : as = rest.reverse ++ [r1] := by rw [← List.reverse_reverse as, has]; simp
      have hr1 := hall r1 (by simp)
      have hne : rest.reverse ≠ [] := by intro h; simp [h] at hlen
      obtain ⟨hse, hle⟩ := singleton_elim hS (M := M) (as := rest.reverse) (fun a ha => hall a (by simp at ha; simp [ha])) hne
      rw [lang_concat hS hall, List.map_append, List.prod_append, ← hle, List.map_cons, List.map_nil, List.prod_singleton] at hw
      have vp := val_skolemPrefix hS (val_str (M := M) hs) (val_minus (val_strLen hS (val_str (M := M) hs)) (val_intTerm (n : ℤ)))
      rw [Model.holds_or]
      by_cases hle' : n ≤ (M.str s).length
      · have vs := val_skolemSuffix hS (val_str (M := M) hs) (val_intTerm (n : ℤ)) hle'
        rw [show (((M.str s).length : ℤ) - (n : ℤ)).toNat = (M.str s).length - n by omega] at vp
        by_cases h3 : (M.str s).take ((M.str s).length - n) ∈ L (M.val (singletonElim rest.reverse))
        · refine ⟨notIn (skolemSuffix s (intTerm n)) r1, by simp, ?_⟩
          rw [holds_notIn hS vs hr1]
          intro h4
          refine hw ?_
          have := Language.append_mem_mul h3 h4
          rwa [List.take_append_drop] at this
        · refine ⟨notIn (skolemPrefix s (.op .sub [strLenOf s, intTerm n])) (singletonElim rest.reverse), by simp, ?_⟩
          rw [holds_notIn hS vp hse]
          exact h3
      · have vs : M.val (skolemSuffix s (intTerm n)) = strV [] := by
          rw [skolemSuffix, val_substr hS (val_str hs) (val_minus (val_strLen hS (val_str hs)) (val_intTerm _)) (val_intTerm _)]
          rw [substr, if_neg (by omega)]
        refine ⟨notIn (skolemSuffix s (intTerm n)) r1, by simp, ?_⟩
        rw [holds_notIn hS vs hr1]
        intro h4
        have := fixedLen_nil hS r1 hn hr1 h4
        omega
  · simp [err] at he

example : Applies (reUnfoldNegFixed true) Always [.op .or [notIn (skolemSuffix (sv "x") (intTerm 2)) (.op .strToRe [lit "ab"]),
      notIn (skolemPrefix (sv "x") (.op .sub [strLenOf (sv "x"), intTerm 2])) (.op .reConcat [.op .reAll [], .op .reAllChar []])]]
    [[notIn (sv "x") (.op .reConcat [.op .reAll [], .op .reAllChar [], .op .strToRe [lit "ab"]])]] [] :=
  ⟨by decide +kernel, by unfold ClauseOK; decide +kernel, by unfold ClauseOK; decide +kernel, by decide +kernel, trivial⟩

/-- **C46**, `re_concat_unfold_pos`. -/
theorem c46_re_concat_unfold_pos_partial : SoundStr reConcatUnfoldPos ConcatOfConstants := by
  intro conclusion premises args h hc hp ha hcond M ⟨L, hS⟩ hprem
  simp only [reConcatUnfoldPos, premTerm, bind_ok, get1_ok, match2_ok, assertEq_ok, Prod.exists] at h
  obtain ⟨p, rfl, c, rfl, term, rfl, t, r, rfl, e, he, rfl⟩ := h
  obtain ⟨-, ht, hr⟩ := sort_strInRe (ok_one hp)
  have hw : M.str t ∈ L (M.val r) := (holds_strInRe hS (val_str ht) hr).1 (prem_one hprem)
  rw [Model.sat_singleton]
  unfold concatUnfoldExpected at he
  split at he
  · next as =>
    obtain ⟨-, -, hall⟩ := sort_reConcat (.inl rfl) hr
    simp only [bind_ok] at he
    obtain ⟨u, hu, he⟩ := he
    obtain ⟨h1, h2, h3⟩ := unfoldPos_constants hS t as 0 (hcond t as rfl) hall hu
    rw [h1] at he
    simp only [Term.asBool, if_true, ok_inj] at he
    subst he
    obtain ⟨h4, h5⟩ := concatExtract_str hS u.c h2
    rw [Model.holds_eq, val_strConcat hS fun t ht => ⟨_, val_str (h4 t ht)⟩, val_str ht, h5, strV_inj]
    rw [lang_concat hS hall, h3] at hw
    exact hw
  · simp [err] at he

example : Applies reConcatUnfoldPos ConcatOfConstants [eqs (sv "x") (cat [lit "ab", sv "y"])]
    [[.op .strInRe [sv "x", .op .reConcat [.op .strToRe [lit "ab"], .op .strToRe [cat [lit "", sv "y"]]]]]] [] :=
  ⟨by decide +kernel, by unfold ClauseOK; decide +kernel, by unfold ClauseOK; decide +kernel, by decide +kernel, by
    intro t as h
    simp only [List.cons.injEq, Term.op.injEq, true_and, and_true] at h
    obtain ⟨-, rfl⟩ := h
    simp⟩

end Carcara
