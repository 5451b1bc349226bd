import Verif.Model.Strings
import Verif.Spec.Strings
import Verif.Lemmas.Subproof
import Verif.Lemmas.Subterms
import Verif.Lemmas.FreeVars
import Verif.Lemmas.Simplify

/-! # Rules for strings: helper lemmas -/

namespace Carcara

open Spec

variable {I : Interp} {L : Val I.U → Language Char}

theorem strV_inj {U : Type} {a b : List Char} : (strV a : Val U) = strV b ↔ a = b := by
  simp only [strV, Val.str.injEq]
  exact ⟨fun h => by simpa using congrArg String.toList h, fun h => by rw [h]⟩

theorem strV_map_inj {U : Type} : ∀ {a b : List (List Char)}, a.map (strV (U := U)) = b.map strV → a = b
  | [], [], _ => rfl
  | [], _ :: _, h => by simp at h
  | _ :: _, [], h => by simp at h
  | a :: as, b :: bs, h => by
    simp only [List.map_cons, List.cons.injEq] at h
    rw [strV_inj.1 h.1, strV_map_inj h.2]

theorem dom_strV {v : Val I.U} : I.dom .string v ↔ ∃ w, v = strV w := by
  rw [I.dom_string]
  constructor
  · rintro ⟨r, rfl⟩; exact ⟨r.toList, by simp [strV]⟩
  · rintro ⟨w, rfl⟩; exact ⟨_, rfl⟩

/-- A list of terms of one sort. -/
theorem sortOfL_allString {s : Srt} {ts : List Term} {ss : List Srt} (h : sortOfL ts = some ss) (hs : ∀ x ∈ ss, x = s) :
    ∀ t ∈ ts, sortOf t = some s := by
  have hf := sortOfL_some h
  clear h
  induction hf with
  | nil => simp
  | @cons s' t ss ts hts _ ih =>
    intro t ht
    rcases List.mem_cons.1 ht with rfl | ht
    · rw [hts, hs s' (by simp)]
    · exact ih (fun x hx => hs x (by simp [hx])) t ht

theorem sort_strConcat {as : List Term} {s : Srt} (h : sortOf (.op .strConcat as) = some s) :
    s = .string ∧ 2 ≤ as.length ∧ ∀ a ∈ as, sortOf a = some .string := by
  obtain ⟨ss, h1, h2⟩ := sortOf_op (by decide) h
  simp only [opSort] at h2
  split at h2
  · next h3 =>
    cases h2
    refine ⟨rfl, ?_, sortOfL_allString h1 (allSort_iff.1 h3.2)⟩
    rw [← List.Forall₂.length_eq (sortOfL_some h1)]; exact h3.1
  · cases h2

theorem sort_reConcat {o : Op} (ho : o = .reConcat ∨ o = .reUnion ∨ o = .reInter) {as : List Term} {s : Srt} (h : sortOf (.op o as) = some s) :
    s = .regLan ∧ 2 ≤ as.length ∧ ∀ a ∈ as, sortOf a = some .regLan := by
  obtain ⟨ss, h1, h2⟩ := sortOf_op (by rcases ho with rfl | rfl | rfl <;> decide) h
  have : (if 2 ≤ ss.length ∧ allSort .regLan ss = true then some Srt.regLan else none) = some s := by
    rcases ho with rfl | rfl | rfl <;> simpa only [opSort] using h2
  split at this
  · next h3 =>
    cases this
    refine ⟨rfl, ?_, sortOfL_allString h1 (allSort_iff.1 h3.2)⟩
    rw [← List.Forall₂.length_eq (sortOfL_some h1)]; exact h3.1
  · cases this

/-- Operators with arguments of fixed sorts. -/
theorem sort_fixed {o : Op} {as : List Term} {s r : Srt} {ss : List Srt} (ho : o ≠ .bvConst)
    (he : ∀ ts, opSort o ts = if ts = ss then some r else none) (h : sortOf (.op o as) = some s) : s = r ∧ sortOfL as = some ss := by
  obtain ⟨ts, h1, h2⟩ := sortOf_op ho h
  rw [he] at h2
  split at h2
  · next h3 => cases h2; exact ⟨rfl, h3 ▸ h1⟩
  · cases h2

theorem sort_strLen {t : Term} {s : Srt} (h : sortOf (.op .strLen [t]) = some s) : s = .int ∧ sortOf t = some .string := by
  obtain ⟨rfl, h'⟩ := sort_fixed (ss := [.string]) (r := .int) (by decide) (fun _ => rfl) h
  obtain ⟨s, ss, e, h, -⟩ := sortOfL_cons.1 h'
  cases e; exact ⟨rfl, h⟩

theorem sort_strInRe {t r : Term} {s : Srt} (h : sortOf (.op .strInRe [t, r]) = some s) :
    s = .bool ∧ sortOf t = some .string ∧ sortOf r = some .regLan := by
  obtain ⟨rfl, h'⟩ := sort_fixed (ss := [.string, .regLan]) (r := .bool) (by decide) (fun _ => rfl) h
  obtain ⟨s, ss, e, h, h'⟩ := sortOfL_cons.1 h'
  cases e
  obtain ⟨s, ss, e, h', -⟩ := sortOfL_cons.1 h'
  cases e; exact ⟨rfl, h, h'⟩

theorem sort_reStar {r : Term} {as : List Term} {s : Srt} (h : sortOf (.op .reStar (r :: as)) = some s) :
    s = .regLan ∧ as = [] ∧ sortOf r = some .regLan := by
  obtain ⟨rfl, h'⟩ := sort_fixed (ss := [.regLan]) (r := .regLan) (by decide) (fun _ => rfl) h
  obtain ⟨s, ss, e, h1, h'⟩ := sortOfL_cons.1 h'
  cases e
  cases as with
  | nil => exact ⟨rfl, rfl, h1⟩
  | cons a as => obtain ⟨_, _, e, _⟩ := sortOfL_cons.1 h'; cases e

/-! ## Flattening -/

theorem sortOf_charTerm (c : Char) : sortOf (charTerm c) = some .string := rfl

theorem mem_flattenStrL : ∀ {as : List Term} {u : Term}, u ∈ flattenStrL as ↔ ∃ a ∈ as, u ∈ flattenStr a
  | [], _ => by simp [flattenStrL]
  | a :: as, u => by simp [flattenStrL, mem_flattenStrL]

/-- The pieces of a flattened term. -/
theorem mem_flattenStr (t : Term) : ∀ {u : Term}, u ∈ flattenStr t → (∃ c, u = charTerm c) ∨
    u ∈ t.subterms ∧ (sortOf t = some .string → sortOf u = some .string) ∧ ((sortOf t).isSome = true → (sortOf u).isSome = true) := by
  induction t using Term.ind with
  | const c =>
    intro u hu
    cases c with
    | str s => simp only [flattenStr, List.mem_map] at hu; obtain ⟨c, -, rfl⟩ := hu; exact .inl ⟨c, rfl⟩
    | _ => simp only [flattenStr, List.mem_singleton] at hu; subst hu; exact .inr ⟨Term.self_mem_subterms _, id, id⟩
  | op o as ih =>
    intro u hu
    by_cases ho : o = .strConcat
    · subst ho
      simp only [flattenStr, mem_flattenStrL] at hu
      obtain ⟨a, ha, hu⟩ := hu
      refine (ih a ha hu).imp_right fun h => ⟨subterms_op ha _ h.1, fun hs => h.2.1 ((sort_strConcat hs).2.2 a ha), fun hs => ?_⟩
      obtain ⟨s, hs⟩ := Option.isSome_iff_exists.1 hs
      exact h.2.2 (by rw [(sort_strConcat hs).2.2 a ha]; rfl)
    · have : flattenStr (.op o as) = [.op o as] := by rw [flattenStr.eq_def]; cases o <;> first | rfl | exact absurd rfl ho
      rw [this, List.mem_singleton] at hu; subst hu; exact .inr ⟨Term.self_mem_subterms _, id, id⟩
  | _ => intro u hu; simp only [flattenStr, List.mem_singleton] at hu; subst hu; exact .inr ⟨Term.self_mem_subterms _, id, id⟩

theorem flattenStr_sort {t : Term} (ht : sortOf t = some .string) {u : Term} (hu : u ∈ flattenStr t) : sortOf u = some .string := by
  rcases mem_flattenStr t hu with ⟨c, rfl⟩ | h
  · rfl
  · exact h.2.1 ht

/-- Flattening keeps the value. -/
def FlatOK (I : Interp) (ρ : Env I.U) (t : Term) : Prop :=
  ∃ ws : List (List Char), (flattenStr t).map (eval I · ρ) = ws.map strV ∧ eval I t ρ = strV ws.flatten

theorem flatOK_list {ρ : Env I.U} : ∀ {as : List Term}, (∀ a ∈ as, FlatOK I ρ a) →
    ∃ ws vs : List (List Char), (flattenStrL as).map (eval I · ρ) = ws.map strV ∧ as.map (eval I · ρ) = vs.map strV ∧ vs.flatten = ws.flatten
  | [], _ => ⟨[], [], rfl, rfl, rfl⟩
  | a :: as, h => by
    obtain ⟨w, h1, h2⟩ := h a (by simp)
    obtain ⟨ws, vs, h3, h4, h5⟩ := flatOK_list fun b hb => h b (List.mem_cons_of_mem _ hb)
    refine ⟨w ++ ws, w.flatten :: vs, ?_, ?_, ?_⟩
    · simp [flattenStrL, h1, h3]
    · simp [h2, h4]
    · simp [h5]

theorem evalOp_strConcat (hS : StringTheory I L) (ws : List (List Char)) : evalOp I .strConcat (ws.map strV) = strV ws.flatten :=
  hS.concat ws

theorem flatOK_concat (hS : StringTheory I L) {ρ : Env I.U} {as : List Term} (h : ∀ a ∈ as, FlatOK I ρ a) : FlatOK I ρ (.op .strConcat as) := by
  obtain ⟨ws, vs, h1, h2, h3⟩ := flatOK_list h
  refine ⟨ws, by rw [flattenStr]; exact h1, ?_⟩
  rw [eval, evalL_eq_map, h2, evalOp_strConcat hS, h3]

theorem flatOK_leaf {ρ : Env I.U} {t : Term} {w : List Char} (h : flattenStr t = [t]) (hv : eval I t ρ = strV w) : FlatOK I ρ t :=
  ⟨[w], by simp [h, hv], by simp [hv]⟩

theorem eval_charTerm {ρ : Env I.U} (c : Char) : eval I (charTerm c) ρ = strV [c] := rfl

theorem map_charTerm {ρ : Env I.U} (cs : List Char) : (cs.map charTerm).map (eval I · ρ) = (cs.map fun c => [c]).map strV := by
  simp [Function.comp_def, eval_charTerm]

theorem flatten_chars (cs : List Char) : (cs.map fun c => [c]).flatten = cs := by
  induction cs with
  | nil => rfl
  | cons c cs ih => simp [ih]

theorem flatOK_str {ρ : Env I.U} (s : String) : FlatOK I ρ (.const (.str s)) :=
  ⟨s.toList.map fun c => [c], map_charTerm _, by rw [flatten_chars]; simp [eval, evalConst, strV]⟩

theorem flattenStr_op {o : Op} {as : List Term} (ho : o ≠ .strConcat) : flattenStr (.op o as) = [.op o as] := by
  rw [flattenStr.eq_def]; cases o <;> first | rfl | exact absurd rfl ho

theorem flatOK_of_sort (hS : StringTheory I L) {ρ : Env I.U} (hρ : I.EnvOK ρ) (t : Term) (ht : sortOf t = some .string) : FlatOK I ρ t := by
  induction t using Term.ind with
  | const c =>
    cases c with
    | str s => exact flatOK_str s
    | _ => simp [sortOf, Const.sort] at ht
  | op o as ih =>
    by_cases ho : o = .strConcat
    · subst ho
      exact flatOK_concat hS fun a ha => ih a ha ((sort_strConcat ht).2.2 a ha)
    · obtain ⟨w, hw⟩ := dom_strV.1 (eval_dom _ ht hρ)
      exact flatOK_leaf (flattenStr_op ho) hw
  | _ =>
    obtain ⟨w, hw⟩ := dom_strV.1 (eval_dom _ ht hρ)
    exact flatOK_leaf rfl hw

theorem expandStrL_eq_map : ∀ as : List Term, expandStrL as = as.map expandStr
  | [] => rfl
  | a :: as => by rw [expandStrL, expandStrL_eq_map as]; rfl

theorem expandStr_op {o : Op} {as : List Term} (ho : o ≠ .strConcat) : expandStr (.op o as) = .op o (as.map expandStr) := by
  rw [← expandStrL_eq_map, expandStr.eq_def]; cases o <;> first | rfl | exact absurd rfl ho

theorem eval_expandStr_str {ρ : Env I.U} (hS : StringTheory I L) (s : String) : eval I (expandStr (.const (.str s))) ρ = .str s := by
  have e : (strV s.toList : Val I.U) = .str s := by simp [strV]
  rw [expandStr]
  split
  · next h => rw [← e, h]; rfl
  · next c h => rw [← e, h]; rfl
  · rw [eval, evalL_eq_map, map_charTerm, evalOp_strConcat hS, flatten_chars, e]

theorem eval_expandStr_concat {ρ : Env I.U} (hS : StringTheory I L) {as : List Term} (h : ∀ a ∈ as, FlatOK I ρ a) :
    eval I (expandStr (.op .strConcat as)) ρ = eval I (.op .strConcat as) ρ := by
  obtain ⟨ws, vs, h1, h2, h3⟩ := flatOK_list h
  rw [expandStr, eval, eval, evalL_eq_map, evalL_eq_map, h1, h2, evalOp_strConcat hS, evalOp_strConcat hS, h3]

theorem eval_expandStr_op {ρ : Env I.U} {o : Op} {as : List Term} (ho : o ≠ .strConcat)
    (h : ∀ a ∈ as, eval I (expandStr a) ρ = eval I a ρ) : eval I (expandStr (.op o as)) ρ = eval I (.op o as) ρ := by
  rw [expandStr_op ho, eval, eval, evalL_eq_map, evalL_eq_map, List.map_map]
  congr 1
  exact List.map_congr_left h

/-- Expanding the string constants keeps the value. -/
theorem eval_expandStr (hS : StringTheory I L) (t : Term) : ∀ {s : Srt} {ρ : Env I.U}, sortOf t = some s → I.EnvOK ρ →
    eval I (expandStr t) ρ = eval I t ρ := by
  have hlist : ∀ {as : List Term}, (∀ a ∈ as, ∀ {s : Srt} {ρ : Env I.U}, sortOf a = some s → I.EnvOK ρ →
      eval I (expandStr a) ρ = eval I a ρ) → ∀ {ss} {ρ : Env I.U}, sortOfL as = some ss → I.EnvOK ρ →
      ∀ a ∈ as, eval I (expandStr a) ρ = eval I a ρ := by
    intro as ih ss ρ hss hρ
    have := sortOfL_some hss
    clear hss
    induction this with
    | nil => simp
    | @cons s a ss as ha _ ih' =>
      intro b hb
      rcases List.mem_cons.1 hb with rfl | hb
      · exact ih b (by simp) ha hρ
      · exact ih' (fun b hb => ih b (List.mem_cons_of_mem _ hb)) b hb
  induction t using Term.ind with
  | const c =>
    intro s ρ h hρ
    cases c with
    | str s => rw [eval_expandStr_str hS]; rfl
    | _ => rfl
  | var n s' => intros; rfl
  | app f as ihf ihas =>
    intro s ρ h hρ
    simp only [sortOf] at h
    split at h
    · next ss r ss' h1 h2 =>
      rw [expandStr, eval, eval, expandStrL_eq_map, evalL_eq_map, evalL_eq_map, List.map_map]
      congr 1
      exact List.map_congr_left (hlist ihas h2 hρ)
    · cases h
  | op o as ih =>
    intro s ρ h hρ
    by_cases ho : o = .strConcat
    · subst ho
      exact eval_expandStr_concat hS fun a ha => flatOK_of_sort hS hρ a ((sort_strConcat h).2.2 a ha)
    · refine eval_expandStr_op ho ?_
      by_cases hb : o = .bvConst
      · subst hb
        simp only [sortOf] at h
        split at h
        · next h2 => exact hlist ih h2 hρ
        · cases h
      · obtain ⟨ss, h1, _⟩ := sortOf_op hb h
        exact hlist ih h1 hρ
  | binder b bs t ih =>
    intro s ρ h hρ
    have ht : ∃ r, sortOf t = some r := by
      simp only [sortOf] at h
      split at h <;> first | exact ⟨_, by assumption⟩ | cases h
    obtain ⟨r, hr⟩ := ht
    rw [expandStr, eval, eval]
    refine evalBinder_congr_env (fun vs hv => ih hr (hρ.setMany hv)) ?_
    intro x s bs' v _ _ hv
    exact ih hr (hρ.set hv)
  | let_ bs t ihb iht =>
    intro s ρ h hρ
    simp only [sortOf] at h
    split at h
    · rw [expandStr, eval, eval]; exact iht h hρ.letMany
    · cases h
  | paramOp o ps as _ ih =>
    intro s ρ h hρ
    simp only [sortOf] at h
    split at h
    · next ss hss =>
      rw [expandStr, eval, eval, expandStrL_eq_map, evalL_eq_map, evalL_eq_map, evalL_eq_map, List.map_map]
      congr 1
      exact List.map_congr_left (hlist ih hss hρ)
    · cases h

theorem flattenStr_piece (t : Term) : ∀ {u : Term}, u ∈ flattenStr t → flattenStr u = [u] := by
  induction t using Term.ind with
  | const c =>
    intro u hu
    cases c with
    | str s => simp only [flattenStr, List.mem_map] at hu; obtain ⟨c, -, rfl⟩ := hu; simp [charTerm, flattenStr]
    | _ => simp only [flattenStr, List.mem_singleton] at hu; subst hu; rfl
  | op o as ih =>
    intro u hu
    by_cases ho : o = .strConcat
    · subst ho
      simp only [flattenStr, mem_flattenStrL] at hu
      obtain ⟨a, ha, hu⟩ := hu
      exact ih a ha hu
    · rw [flattenStr_op ho, List.mem_singleton] at hu; subst hu; exact flattenStr_op ho
  | _ => intro u hu; simp only [flattenStr, List.mem_singleton] at hu; subst hu; rfl

/-- The expansion of a string term can be flattened again. -/
theorem flatOK_expandStr (hS : StringTheory I L) {ρ : Env I.U} (hρ : I.EnvOK ρ) {t : Term} (ht : sortOf t = some .string) :
    FlatOK I ρ (expandStr t) := by
  have hv := eval_expandStr hS t ht hρ
  obtain ⟨w, hw⟩ := dom_strV.1 (eval_dom _ ht hρ)
  rw [hw] at hv
  have hpiece : ∀ u ∈ flattenStr t, FlatOK I ρ u := fun u hu => by
    obtain ⟨w, hw⟩ := dom_strV.1 (eval_dom _ (flattenStr_sort ht hu) hρ)
    exact flatOK_leaf (flattenStr_piece t hu) hw
  cases t with
  | const c =>
    cases c with
    | str s =>
      rw [expandStr]
      split
      · exact flatOK_str _
      · exact flatOK_str _
      · exact flatOK_concat hS fun u hu => by obtain ⟨c, -, rfl⟩ := List.mem_map.1 hu; exact flatOK_str _
    | _ => exact flatOK_leaf rfl hv
  | op o as =>
    by_cases ho : o = .strConcat
    · subst ho
      rw [expandStr]
      exact flatOK_concat hS hpiece
    · rw [expandStr_op ho] at hv ⊢
      exact flatOK_leaf (flattenStr_op ho) hv
  | _ => exact flatOK_leaf rfl hv

end Carcara
