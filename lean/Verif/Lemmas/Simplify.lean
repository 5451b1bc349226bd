import Verif.Model.Simplify
import Verif.Lemmas.Cnf
import Verif.Lemmas.Polyeq
import Verif.Lemmas.Utils

/-! # Facts used in the proofs about the simplification rules -/

namespace Carcara
open Classical Val Sem

/-! ## Sorts of applications -/

theorem sort_not {t : Term} {s : Srt} : sortOf (.op .not [t]) = some s ↔ s = .bool ∧ sortOf t = some .bool := by
  constructor
  · intro h
    obtain ⟨ss, h1, h2⟩ := sortOf_op (by decide) h
    simp only [opSort] at h2
    split at h2
    · cases h2; exact ⟨rfl, bool_children (Or.inl rfl) h t (by simp)⟩
    · cases h2
  · rintro ⟨rfl, h⟩; simp [sortOf, sortOfL, h, opSort]

theorem sort_tru {s : Srt} : sortOf (.op .tru []) = some s ↔ s = .bool := by
  simp [sortOf, sortOfL, opSort, eq_comm]
theorem sort_fls {s : Srt} : sortOf (.op .fls []) = some s ↔ s = .bool := by
  simp [sortOf, sortOfL, opSort, eq_comm]

theorem sort_connective {o : Op} (ho : o = .and ∨ o = .or ∨ o = .xor) {ts : List Term} {s : Srt} :
    sortOf (.op o ts) = some s ↔ s = .bool ∧ ts ≠ [] ∧ ∀ t ∈ ts, sortOf t = some .bool := by
  constructor
  · intro h
    refine ⟨?_, ?_, bool_children (by tauto) h⟩
    · obtain ⟨ss, h1, h2⟩ := sortOf_op (by rcases ho with rfl | rfl | rfl <;> decide) h
      rcases ho with rfl | rfl | rfl <;> simp only [opSort] at h2 <;> split at h2 <;> cases h2 <;> rfl
    · rintro rfl
      rcases ho with rfl | rfl | rfl <;> simp [sortOf, sortOfL, opSort] at h
  · rintro ⟨rfl, hne, h⟩
    have hl : ∀ ts : List Term, (∀ t ∈ ts, sortOf t = some .bool) → sortOfL ts = some (List.replicate ts.length .bool) := by
      intro ts h
      induction ts with
      | nil => rfl
      | cons t ts ih =>
        rw [sortOfL_cons]
        exact ⟨_, _, rfl, h t (by simp), ih fun u hu => h u (by simp [hu])⟩
    have hlen : 1 ≤ ts.length := List.length_pos_iff.2 hne
    rw [sortOf_op_eq (by rcases ho with rfl | rfl | rfl <;> decide), hl ts h]
    rcases ho with rfl | rfl | rfl <;> simp [opSort, allSort, hlen]

theorem sort_and {ts : List Term} {s : Srt} :
    sortOf (.op .and ts) = some s ↔ s = .bool ∧ ts ≠ [] ∧ ∀ t ∈ ts, sortOf t = some .bool :=
  sort_connective (Or.inl rfl)
theorem sort_or {ts : List Term} {s : Srt} :
    sortOf (.op .or ts) = some s ↔ s = .bool ∧ ts ≠ [] ∧ ∀ t ∈ ts, sortOf t = some .bool :=
  sort_connective (Or.inr (Or.inl rfl))

theorem sort_implies {a b : Term} {s : Srt} :
    sortOf (.op .implies [a, b]) = some s ↔ s = .bool ∧ sortOf a = some .bool ∧ sortOf b = some .bool := by
  constructor
  · intro h
    have hb := bool_children (o := .implies) (by tauto) h
    refine ⟨?_, hb a (by simp), hb b (by simp)⟩
    obtain ⟨ss, h1, h2⟩ := sortOf_op (by decide) h
    simp only [opSort] at h2
    split at h2 <;> cases h2; rfl
  · rintro ⟨rfl, ha, hb⟩; simp [sortOf, sortOfL, ha, hb, opSort, allSort]

theorem sort_equals {a b : Term} {s : Srt} :
    sortOf (.op .equals [a, b]) = some s ↔ s = .bool ∧ ∃ r, sortOf a = some r ∧ sortOf b = some r := by
  constructor
  · intro h
    refine ⟨?_, eq_children h⟩
    obtain ⟨ss, h1, h2⟩ := sortOf_op (by decide) h
    simp only [opSort] at h2
    split at h2
    · split at h2 <;> cases h2; rfl
    · cases h2
  · rintro ⟨rfl, r, ha, hb⟩; simp [sortOf, sortOfL, ha, hb, opSort, allSort]

theorem sort_ite {c a b : Term} {s : Srt} :
    sortOf (.op .ite [c, a, b]) = some s ↔ sortOf c = some .bool ∧ sortOf a = some s ∧ sortOf b = some s := by
  constructor
  · exact ite_children
  · rintro ⟨hc, ha, hb⟩; simp [sortOf, sortOfL, hc, ha, hb, opSort]

/-! ## Rewriting -/

/-- A rewrite keeps the sort and the value of well-sorted terms. -/
def RewriteOK (f : Term → Res (Option Term)) : Prop :=
  ∀ t u s, f t = .ok (some u) → sortOf t = some s → sortOf u = some s ∧ ∀ M : Model, M.val u = M.val t

theorem firstOf_ok {rs : List Rewrite} (h : ∀ r ∈ rs, RewriteOK fun t => .ok (r t)) :
    RewriteOK fun t => .ok (firstOf rs t) := by
  intro t u s e hs
  simp only [firstOf, ok_inj] at e
  obtain ⟨r, hr, e⟩ := List.exists_of_findSome?_eq_some e
  exact h r hr t u s (by simp only [e]) hs

theorem simplifyFix_ok {f : Term → Res (Option Term)} (hf : RewriteOK f) {goal : Term} :
    ∀ {n : Nat} {seen : List Term} {t u : Term} {s : Srt}, simplifyFix f goal n seen t = .ok u → sortOf t = some s →
    ∀ M : Model, M.val u = M.val t := by
  intro n
  induction n with
  | zero => intro seen t u s h; simp [simplifyFix] at h
  | succ n ih =>
    intro seen t u s h hs M
    simp only [simplifyFix] at h
    split at h
    · simp at h
    · simp only [bind_ok] at h
      obtain ⟨r, hr, h⟩ := h
      cases r with
      | none => simp only [ok_inj] at h; rw [h]
      | some v =>
        obtain ⟨hv, e⟩ := hf t v s hr hs
        simp only at h
        split at h
        · simp only [ok_inj] at h; subst h; exact e M
        · rw [ih h hv M, e M]

theorem genericSimplify_sound {f : Term → Res (Option Term)} (hf : RewriteOK f) : SoundRule (genericSimplify f) := by
  intro c ps as h hc hps M hM
  simp only [genericSimplify, bind_ok, get1_ok, match2_ok, Prod.exists] at h
  obtain ⟨_, rfl, l, r, rfl, u, hu, h⟩ := h
  have hs := hc _ (List.mem_singleton_self _)
  obtain ⟨-, s, hl, hr⟩ := sort_equals.1 hs
  rw [Model.sat_singleton, M.holds_eq]
  split at h
  · next e => subst e; exact (simplifyFix_ok hf hu hl M).symm
  · simp only [bind_ok, require_ok] at h
    obtain ⟨v, hv, rfl⟩ := h
    exact simplifyFix_ok hf hv hr M

/-! ## The rewrites -/

/-- Both sides are Boolean and true at the same time. -/
theorem Model.val_eq_of_holds {M : Model} {a b : Term} (ha : sortOf a = some .bool) (hb : sortOf b = some .bool)
    (h : M.Holds a ↔ M.Holds b) : M.val a = M.val b :=
  ((M.isBool_of_sort ha).val_eq (M.isBool_of_sort hb)).2 h

theorem and2_iff {p : Term → Prop} {a b : Term} : (∀ t ∈ [a, b], p t) ↔ p a ∧ p b := by simp
theorem or2_iff {p : Term → Prop} {a b : Term} : (∃ t ∈ [a, b], p t) ↔ p a ∨ p b := by simp

/-- Reduces `RewriteOK` to the sort and the value of the right-hand side. -/
macro "rewrite_cases" : tactic => `(tactic| (
  intro t u s h hs
  simp only [ok_inj] at h
  repeat' split at h
  all_goals first
    | (cases h; done)
    | skip
  all_goals (
    simp only [Option.some.injEq] at h
    subst_vars
    have hs' := hs
    simp only [sort_not, sort_tru, sort_fls, sort_and, sort_or, sort_implies, sort_ite, sort_equals, and2_iff, ne_eq,
      List.cons_ne_nil, not_false_eq_true, true_and, and_true] at hs')))

/-- Closes the sort part of `RewriteOK`. -/
macro "rewrite_sort" : tactic => `(tactic| (
    try simp only [sort_not, sort_tru, sort_fls, sort_and, sort_or, sort_implies, sort_ite, sort_equals, and2_iff, ne_eq,
      List.cons_ne_nil, not_false_eq_true, true_and, and_true]
    try grind))

/-- Closes the value part of `RewriteOK` for formulas. -/
macro "rewrite_bool" : tactic => `(tactic| (
    refine Model.val_eq_of_holds ?_ ?_ ?_
    · rewrite_sort
    · rewrite_sort
    · simp only [Model.holds_not, Model.holds_and, Model.holds_or, Model.holds_implies, Model.holds_ite,
        Model.holds_tru, Model.holds_fls, and2_iff, or2_iff, if_true, if_false]
      first
      | tauto
      | (split <;> tauto)
      | skip))

theorem iteRewrites_ok : RewriteOK fun t => .ok (firstOf iteRewrites t) := by
  refine firstOf_ok fun r hr => ?_
  simp only [iteRewrites, List.mem_cons, List.not_mem_nil, or_false] at hr
  rcases hr with rfl | rfl | rfl | rfl | rfl | rfl | rfl | rfl | rfl | rfl | rfl | rfl
  all_goals rewrite_cases
  all_goals refine ⟨by rewrite_sort, fun M => ?_⟩
  all_goals first
    | (rewrite_bool; done)
    | (simp only [Model.val_ite, Model.holds_not, Model.holds_tru, Model.holds_fls, ite_not, if_true, if_false,
        ite_self]; done)
    | (simp only [Model.val_ite]; split <;> rfl)

theorem notRewrites_ok : RewriteOK fun t => .ok (firstOf notRewrites t) := by
  refine firstOf_ok fun r hr => ?_
  simp only [notRewrites, List.mem_cons, List.not_mem_nil, or_false] at hr
  rcases hr with rfl | rfl | rfl
  all_goals rewrite_cases
  all_goals exact ⟨by rewrite_sort, fun M => by rewrite_bool⟩

theorem boolRewrites_ok : RewriteOK fun t => .ok (firstOf boolRewrites t) := by
  refine firstOf_ok fun r hr => ?_
  simp only [boolRewrites, List.mem_cons, List.not_mem_nil, or_false] at hr
  rcases hr with rfl | rfl | rfl | rfl | rfl | rfl | rfl
  all_goals rewrite_cases
  all_goals exact ⟨by rewrite_sort, fun M => by rewrite_bool⟩

theorem removeNegation_some {t u : Term} : t.removeNegation = some u ↔ t = .op .not [u] := by
  unfold Term.removeNegation
  split
  · simp
  · next h => simp only [reduceCtorEq, false_iff]; exact fun e => h _ e

theorem impliesRewrites_ok : RewriteOK fun t => .ok (firstOf impliesRewrites t) := by
  refine firstOf_ok fun r hr => ?_
  simp only [impliesRewrites, List.mem_cons, List.not_mem_nil, or_false] at hr
  rcases hr with rfl | rfl | rfl | rfl | rfl | rfl | rfl | rfl
  all_goals rewrite_cases
  all_goals refine ⟨by rewrite_sort, fun M => ?_⟩
  all_goals try (rewrite_bool; done)
  next h _ =>
    rw [removeNegation_some, removeNegation_some] at h
    rcases h with rfl | rfl <;> rewrite_bool

/-- The value of an equality of formulas. -/
theorem Model.val_iff {M : Model} {a b : Term} (ha : sortOf a = some .bool) (hb : sortOf b = some .bool) :
    M.val (.op .equals [a, b]) = .prop (M.Holds a ↔ M.Holds b) := by
  rw [M.val_eq, (M.isBool_of_sort ha).val_eq (M.isBool_of_sort hb)]

theorem equivRewrites_ok : RewriteOK fun t => .ok (firstOf equivRewrites t) := by
  refine firstOf_ok fun r hr => ?_
  simp only [equivRewrites, List.mem_cons, List.not_mem_nil, or_false] at hr
  rcases hr with rfl | rfl | rfl | rfl | rfl | rfl | rfl | rfl
  all_goals rewrite_cases
  all_goals refine ⟨by rewrite_sort, fun M => ?_⟩
  all_goals first
    | (simp only [Model.val_eq, Model.val_tru, Val.prop_true]; done)
    | (rw [Model.val_iff (M := M) (by rewrite_sort) (by rewrite_sort),
        Model.val_iff (M := M) (by rewrite_sort) (by rewrite_sort)]
       simp only [Model.holds_not, not_iff_not])
    | (rw [Model.val_iff (M := M) (by rewrite_sort) (by rewrite_sort)]
       first
       | rw [Model.val_not]
       | rw [(M.isBool_of_sort (by rewrite_sort)).val_prop]
       simp only [Model.holds_not, Model.holds_tru, Model.holds_fls, true_iff, iff_true, false_iff, iff_false,
         iff_not_self, not_iff_self])

/-! ## Numbers -/

theorem Term.asNumber_val {t : Term} {q : Rat} (h : t.asNumber = some q) (M : Model) : (M.val t).num = some (q : ℝ) := by
  unfold Term.asNumber at h
  split at h
  · cases h; simp [Model.val, eval, evalConst, Val.num]
  · cases h; simp [Model.val, eval, evalConst, Val.num]
  · cases h

theorem num_neg (M : Model) {t : Term} {r : ℝ} (h : (M.val t).num = some r) :
    (M.val (.op .sub [t])).num = some (-r) := by
  rw [M.val_op]
  cases hv : M.val t <;> simp only [hv, Val.num, reduceCtorEq, Option.some.injEq] at h <;>
    simp [evalOp, stdOp, stdSub, asInts, asNums, Val.num, subL, hv, ← h]

theorem Term.asSignedNumber_val {t : Term} {q : Rat} (h : t.asSignedNumber = some q) (M : Model) :
    (M.val t).num = some (q : ℝ) := by
  unfold Term.asSignedNumber at h
  split at h
  · next x =>
    simp only [Option.map_eq_some_iff] at h
    obtain ⟨r, hr, rfl⟩ := h
    rw [num_neg M (Term.asNumber_val hr M)]
    simp
  · exact Term.asNumber_val h M

theorem eqRewrites_ok : RewriteOK fun t => .ok (firstOf eqRewrites t) := by
  refine firstOf_ok fun r hr => ?_
  simp only [eqRewrites, List.mem_cons, List.not_mem_nil, or_false] at hr
  rcases hr with rfl | rfl | rfl
  · rewrite_cases
    refine ⟨by rewrite_sort, fun M => ?_⟩
    simp only [Model.val_eq, Model.val_tru, Val.prop_true]
  · rewrite_cases
    next hp hq hne _ =>
    refine ⟨by rewrite_sort, fun M => ?_⟩
    have h1 := Term.asSignedNumber_val hp M
    have h2 := Term.asSignedNumber_val hq M
    rw [M.val_eq, M.val_fls, ← Val.prop_false, Model.prop_inj, false_iff]
    intro e
    rw [e, h2] at h1
    simp only [Option.some.injEq, Rat.cast_inj] at h1
    exact hne h1.symm
  · rewrite_cases
    next hab _ =>
    obtain ⟨rfl, -⟩ := hab
    refine ⟨by rewrite_sort, fun M => ?_⟩
    rw [M.val_not, M.holds_eq, M.val_fls, ← Val.prop_false]
    simp

/-! ## `and_simplify` and `or_simplify` -/

theorem mem_dedupFrom' {κ : Type} [DecidableEq κ] (seen l : List κ) (a : κ) :
    a ∈ dedupFrom seen l ↔ a ∈ l ∧ a ∉ seen := by
  induction l generalizing seen with
  | nil => simp [dedupFrom]
  | cons b l ih =>
    simp only [dedupFrom]
    split
    · next h => rw [ih, List.mem_cons]; constructor
                · tauto
                · rintro ⟨rfl | h', h''⟩
                  · exact absurd h h''
                  · exact ⟨h', h''⟩
    · next h =>
      have hs : ∀ x, x ∈ setInsert seen b ↔ x = b ∨ x ∈ seen := by
        intro x; simp only [setInsert]; split
        · next hb => constructor
                     · exact Or.inr
                     · rintro (rfl | hx)
                       · exact hb
                       · exact hx
        · simp [or_comm]
      rw [List.mem_cons, ih, hs, List.mem_cons]
      by_cases e : a = b
      · subst e; simp [h]
      · simp [e]

theorem mem_dedup {κ : Type} [DecidableEq κ] {l : List κ} {a : κ} : a ∈ dedup l ↔ a ∈ l := by
  simp [dedup, mem_dedupFrom']

theorem Model.holds_removeAllNegations (M : Model) (t : Term) :
    M.Holds t ↔ (if t.removeAllNegationsPol.1 then M.Holds t.removeAllNegationsPol.2
      else ¬ M.Holds t.removeAllNegationsPol.2) := by
  have key : M.Holds t ↔ (if t.removeAllNegations.1 % 2 = 0 then M.Holds t.removeAllNegations.2
      else ¬ M.Holds t.removeAllNegations.2) := by
    induction t using Term.removeAllNegations.induct with
    | case1 t n u h ih =>
      rw [h] at ih
      simp only [Term.removeAllNegations, h, M.holds_not, ih]
      by_cases hn : n % 2 = 0
      · have : ¬ (n + 1) % 2 = 0 := by omega
        simp [hn, this]
      · have : (n + 1) % 2 = 0 := by omega
        simp [hn, this]
    | case2 t h =>
      have : t.removeAllNegations = (0, t) := by
        unfold Term.removeAllNegations; split
        · next t' => exact absurd rfl (h t')
        · rfl
      simp [this]
  simpa [Term.removeAllNegationsPol] using key

/-- The two instances of `andOrSimplify`. -/
def AndOr (k : Op) (skip : Bool) : Prop := (k = .and ∧ skip = true) ∨ (k = .or ∧ skip = false)

section
variable {k : Op} {skip : Bool} (hk : AndOr k skip) (M : Model)
include hk

theorem AndOr.congr {as bs : List Term} (h : ∀ t, t ∈ as ↔ t ∈ bs) : M.Holds (.op k as) ↔ M.Holds (.op k bs) := by
  rcases hk with ⟨rfl, -⟩ | ⟨rfl, -⟩
  · simp only [M.holds_and, h]
  · simp only [M.holds_or, h]

theorem AndOr.single {t : Term} : M.Holds (.op k [t]) ↔ M.Holds t := by
  rcases hk with ⟨rfl, -⟩ | ⟨rfl, -⟩ <;> simp

theorem AndOr.argsOrSelf {t : Term} : M.Holds (.op k (argsOrSelf k t)) ↔ M.Holds t := by
  unfold Carcara.argsOrSelf
  split
  · split
    · next h => subst h; rfl
    · exact hk.single M
  · exact hk.single M

theorem AndOr.unnest {ts : List Term} : M.Holds (.op k (unnestOne k ts)) ↔ M.Holds (.op k ts) := by
  unfold unnestOne
  split
  · split
    · next h => subst h; exact (hk.single M).symm
    · rfl
  · rfl

theorem AndOr.constant {t : Term} {b : Bool} (h : t.isBoolConstant b = true) : M.Holds t ↔ b = true := by
  cases b
  · simp only [Term.isBoolConstant, Bool.false_eq_true, if_false, Term.isBoolFalse, decide_eq_true_eq] at h
    subst h; simp
  · simp only [Term.isBoolConstant, if_true, Term.isBoolTrue, decide_eq_true_eq] at h
    subst h; simp

theorem AndOr.filter {ts : List Term} :
    M.Holds (.op k (ts.filter fun t => !t.isBoolConstant skip)) ↔ M.Holds (.op k ts) := by
  have hc := fun t => hk.constant M (t := t) (b := skip)
  rcases hk with ⟨rfl, rfl⟩ | ⟨rfl, rfl⟩
  · simp only [M.holds_and, List.mem_filter]
    constructor
    · intro h t ht
      by_cases e : t.isBoolConstant true = true
      · exact (hc t e).2 rfl
      · exact h t ⟨ht, by simp [e]⟩
    · intro h t ht; exact h t ht.1
  · simp only [M.holds_or, List.mem_filter]
    constructor
    · rintro ⟨t, ⟨ht, -⟩, h⟩; exact ⟨t, ht, h⟩
    · rintro ⟨t, ht, h⟩
      refine ⟨t, ⟨ht, ?_⟩, h⟩
      by_cases e : t.isBoolConstant false = true
      · exact absurd ((hc t e).1 h) (by simp)
      · simp [e]

theorem AndOr.nil : M.Holds (.op k []) ↔ skip = true := by
  rcases hk with ⟨rfl, rfl⟩ | ⟨rfl, rfl⟩ <;> simp

theorem AndOr.short {ts : List Term} (h : shortCircuits (!skip) ts = true) : M.Holds (.op k ts) ↔ (!skip) = true := by
  simp only [shortCircuits, List.any_eq_true, Bool.or_eq_true, decide_eq_true_eq] at h
  obtain ⟨t, ht, h⟩ := h
  have key : ∃ x ∈ ts, ∃ y ∈ ts, (M.Holds x ↔ (!skip) = true) ∨ (M.Holds x ↔ ¬ M.Holds y) := by
    rcases h with ⟨u, hu, h⟩ | h
    · refine ⟨u, hu, t, ht, Or.inr ?_⟩
      rw [M.holds_removeAllNegations u, M.holds_removeAllNegations t, h]
      cases t.removeAllNegationsPol.1 <;> simp
    · exact ⟨t, ht, t, ht, Or.inl (hk.constant M h)⟩
  obtain ⟨x, hx, y, hy, h⟩ := key
  rcases hk with ⟨rfl, rfl⟩ | ⟨rfl, rfl⟩
  · simp only [M.holds_and, Bool.not_true, Bool.false_eq_true, iff_false] at h ⊢
    intro hall
    have h1 := hall x hx
    have h2 := hall y hy
    tauto
  · simp only [M.holds_or, Bool.not_false, iff_true] at h ⊢
    by_cases h1 : M.Holds x
    · exact ⟨x, hx, h1⟩
    · exact ⟨y, hy, by tauto⟩

theorem AndOr.constResult {r : List Term} {b : Bool} {u : Unit}
    (h : (match r with | [t] => require (t.isBoolConstant b = true) | _ => err) = .ok u) :
    M.Holds (.op k r) ↔ b = true := by
  split at h
  · rw [hk.single M]; exact hk.constant M (require_ok.1 h)
  · simp at h

theorem andOrSimplify_sound : SoundRule (andOrSimplify k skip) := by
  intro c ps as h hc hps M hM
  simp only [andOrSimplify, bind_ok, get1_ok, match2_ok, matchOp_ok, Prod.exists] at h
  obtain ⟨_, rfl, l, r, rfl, phis, rfl, h⟩ := h
  have hs := hc _ (List.mem_singleton_self _)
  obtain ⟨-, s, hl, hr⟩ := sort_equals.1 hs
  have hsb : s = .bool := by
    rcases hk with ⟨rfl, -⟩ | ⟨rfl, -⟩
    · exact (sort_and.1 hl).1
    · exact (sort_or.1 hl).1
  subst hsb
  rw [Model.sat_singleton, M.holds_eq]
  refine Model.val_eq_of_holds hl hr ?_
  rw [← hk.argsOrSelf M (t := r), ← hk.unnest M (ts := phis), ← hk.filter M]
  split at h
  · next e => rw [e]
  · rw [← hk.congr M (as := dedup _) fun t => mem_dedup]
    split at h
    · next e => rw [e]
    · split at h
      · next hsc => rw [hk.short M hsc, hk.constResult M h]
      · split at h
        · next hnil => rw [hnil, hk.nil M, hk.constResult M h]
        · rw [require_ok.1 h]

end

/-! ## `ac_simp` -/

theorem acSimpL_eq (ts : List Term) : acSimpL ts = ts.map acSimpTerm := by
  induction ts with
  | nil => rfl
  | cons t ts ih => rw [acSimpL, ih]; rfl

theorem argsOrSelf_sort {o : Op} (ho : o = .and ∨ o = .or) {t : Term} (h : sortOf t = some .bool) :
    argsOrSelf o t ≠ [] ∧ ∀ u ∈ argsOrSelf o t, sortOf u = some .bool := by
  unfold argsOrSelf
  split
  · split
    · next e => subst e; exact ((sort_connective (by tauto)).1 h).2
    · simpa using h
  · simpa using h

theorem acJoin_ok {o : Op} {b : Bool} (hk : AndOr o b) {as : List Term} (hne : as ≠ [])
    (h : ∀ a ∈ as, sortOf a = some .bool) :
    sortOf (acJoin o as) = some .bool ∧ ∀ M : Model, M.Holds (acJoin o as) ↔ M.Holds (.op o as) := by
  have ho : o = .and ∨ o = .or := by rcases hk with h | h <;> simp [h.1]
  have hsort : ∀ u ∈ dedup (as.flatMap (argsOrSelf o)), sortOf u = some .bool := by
    intro u hu
    rw [mem_dedup, List.mem_flatMap] at hu
    obtain ⟨a, ha, hu⟩ := hu
    exact (argsOrSelf_sort ho (h a ha)).2 u hu
  have hne' : dedup (as.flatMap (argsOrSelf o)) ≠ [] := by
    obtain ⟨a, as', rfl⟩ := List.exists_cons_of_ne_nil hne
    have h1 := (argsOrSelf_sort ho (h a (by simp))).1
    obtain ⟨u, us, e⟩ := List.exists_cons_of_ne_nil h1
    intro e'
    have : u ∈ dedup ((a :: as').flatMap (argsOrSelf o)) := by
      rw [mem_dedup, List.mem_flatMap]; exact ⟨a, by simp, by simp [e]⟩
    rw [e'] at this; simp at this
  have hval : ∀ M : Model, M.Holds (.op o (dedup (as.flatMap (argsOrSelf o)))) ↔ M.Holds (.op o as) := by
    intro M
    rw [hk.congr M fun t => mem_dedup]
    have hself := fun t => hk.argsOrSelf M (t := t)
    rcases hk with ⟨rfl, -⟩ | ⟨rfl, -⟩
    · simp only [M.holds_and, List.mem_flatMap] at hself ⊢
      exact ⟨fun h a ha => (hself a).1 fun t ht => h t ⟨a, ha, ht⟩,
        fun h t ⟨a, ha, ht⟩ => (hself a).2 (h a ha) t ht⟩
    · simp only [M.holds_or, List.mem_flatMap] at hself ⊢
      constructor
      · rintro ⟨t, ⟨a, ha, ht⟩, hh⟩; exact ⟨a, ha, (hself a).1 ⟨t, ht, hh⟩⟩
      · rintro ⟨a, ha, hh⟩
        obtain ⟨t, ht, hh⟩ := (hself a).2 hh
        exact ⟨t, ⟨a, ha, ht⟩, hh⟩
  unfold acJoin
  split
  · next t e =>
    rw [e] at hsort hval
    exact ⟨hsort t (by simp), fun M => (hk.single M).symm.trans (hval M)⟩
  · exact ⟨(sort_connective (by tauto)).2 ⟨rfl, hne', hsort⟩, hval⟩

/-- What `ac_simp` promises for one term. -/
def AcOK (t : Term) : Prop :=
  ∀ s, sortOf t = some s → sortOf (acSimpTerm t) = some s ∧
    ∀ (I : Interp) (ρ : Env I.U), I.EnvOK ρ → eval I (acSimpTerm t) ρ = eval I t ρ

theorem acSimpL_ok {ts : List Term} (h : ∀ t ∈ ts, AcOK t) {ss : List Srt} (hs : sortOfL ts = some ss) :
    sortOfL (acSimpL ts) = some ss ∧
    ∀ (I : Interp) (ρ : Env I.U), I.EnvOK ρ → (acSimpL ts).map (eval I · ρ) = ts.map (eval I · ρ) := by
  induction ts generalizing ss with
  | nil => exact ⟨hs, fun _ _ _ => rfl⟩
  | cons t ts ih =>
    obtain ⟨s, ss', rfl, h1, h2⟩ := sortOfL_cons.1 hs
    obtain ⟨h3, h4⟩ := h t (by simp) s h1
    obtain ⟨h5, h6⟩ := ih (fun u hu => h u (by simp [hu])) h2
    refine ⟨sortOfL_cons.2 ⟨_, _, rfl, h3, h5⟩, fun I ρ hρ => ?_⟩
    simp only [acSimpL, List.map_cons, h4 I ρ hρ, h6 I ρ hρ]

theorem acOK_connective {o : Op} {b : Bool} (hk : AndOr o b) {ts : List Term} (h : ∀ t ∈ ts, AcOK t)
    (e : acSimpTerm (.op o ts) = acJoin o (acSimpL ts)) : AcOK (.op o ts) := by
  intro s hs
  have ho : o = .and ∨ o = .or := by rcases hk with h | h <;> simp [h.1]
  obtain ⟨rfl, hne, hb⟩ := (sort_connective (by tauto)).1 hs
  have hmem : ∀ u ∈ acSimpL ts, sortOf u = some .bool := by
    intro u hu
    rw [acSimpL_eq, List.mem_map] at hu
    obtain ⟨t, ht, rfl⟩ := hu
    exact (h t ht _ (hb t ht)).1
  have hne' : acSimpL ts ≠ [] := by rw [acSimpL_eq]; simpa using hne
  obtain ⟨h1, h2⟩ := acJoin_ok hk hne' hmem
  rw [e]
  refine ⟨h1, fun I ρ hρ => ?_⟩
  refine Model.val_eq_of_holds (M := ⟨I, ρ, hρ⟩) h1 hs ?_
  rw [h2]
  obtain ⟨ss, hss, -⟩ := sortOf_op (by rcases ho with rfl | rfl <;> decide) hs
  have := (acSimpL_ok h hss).2 I ρ hρ
  simp only [Model.Holds, Model.val, eval, evalL_eq_map, this]

theorem acSimpTerm_ok (t : Term) : AcOK t := by
  induction t using Term.ind with
  | const c => exact fun s hs => ⟨hs, fun _ _ _ => rfl⟩
  | var x r => exact fun s hs => ⟨hs, fun _ _ _ => rfl⟩
  | app f as hf has =>
    intro s hs
    simp only [acSimpTerm, sortOf] at hs ⊢
    cases h2 : sortOfL as with
    | none => simp [h2] at hs
    | some ss =>
      obtain ⟨h3, h4⟩ := acSimpL_ok has h2
      rw [h3]; rw [h2] at hs
      exact ⟨hs, fun I ρ hρ => by simp only [eval, evalL_eq_map, h4 I ρ hρ]⟩
  | op o as has =>
    by_cases h1 : o = .and
    · subst h1; exact acOK_connective (Or.inl ⟨rfl, rfl⟩) has (by simp [acSimpTerm])
    by_cases h2 : o = .or
    · subst h2; exact acOK_connective (Or.inr ⟨rfl, rfl⟩) has (by simp [acSimpTerm])
    have e : acSimpTerm (.op o as) = .op o (acSimpL as) := by
      cases o <;> first | rfl | (exact absurd rfl h1) | (exact absurd rfl h2) | simp [acSimpTerm]
    intro s hs
    rw [e]
    by_cases h3 : o = .bvConst
    · subst h3
      simp only [sortOf] at hs
      split at hs
      · next a w h4 =>
        obtain ⟨h5, h6⟩ := acSimpL_ok has h4
        refine ⟨?_, fun I ρ hρ => by simp only [eval, evalL_eq_map, h6 I ρ hρ]⟩
        simp only [acSimpL, acSimpTerm] at h5 ⊢
        simp only [sortOf, h5, hs]
      · cases hs
    · obtain ⟨ss, h4, h5⟩ := sortOf_op h3 hs
      obtain ⟨h6, h7⟩ := acSimpL_ok has h4
      refine ⟨?_, fun I ρ hρ => by simp only [eval, evalL_eq_map, h7 I ρ hρ]⟩
      rw [sortOf_op_eq h3, h6]; exact h5
  | binder b bs t ht =>
    intro s hs
    simp only [acSimpTerm, sortOf] at hs ⊢
    cases h2 : sortOf t with
    | none => rw [h2] at hs; simp at hs
    | some r =>
      obtain ⟨h3, h4⟩ := ht r h2
      rw [h3]; rw [h2] at hs
      refine ⟨hs, fun I ρ hρ => ?_⟩
      simp only [eval]
      exact evalBinder_congr (fun ρ' hρ' => h4 I ρ' hρ') hρ
  | let_ bs t hbs ht =>
    intro s hs
    simp only [acSimpTerm, sortOf] at hs ⊢
    split at hs
    · next hb =>
      obtain ⟨h3, h4⟩ := ht s hs
      rw [if_pos hb]
      exact ⟨h3, fun I ρ hρ => by simp only [eval]; exact h4 I _ hρ.letMany⟩
    · cases hs
  | paramOp o ps as hps has => exact fun s hs => ⟨hs, fun _ _ _ => rfl⟩

/-! ## Termination -/

/-- A measure that every application of the rewrite decreases. -/
def Decreases (f : Term → Res (Option Term)) (μ : Term → Nat) : Prop :=
  ∀ t u, f t = .ok (some u) → μ u < μ t

theorem Decreases.wf {f : Term → Res (Option Term)} {μ : Term → Nat} (h : Decreases f μ) :
    WellFounded fun u t => f t = .ok (some u) :=
  Subrelation.wf (r := fun u t => μ u < μ t) (fun {u t} e => h t u e) (measure μ).wf

theorem Decreases.rounds {f : Term → Res (Option Term)} {μ : Term → Nat} (h : Decreases f μ) (goal : Term) :
    ∀ {n m : Nat} {seen : List Term} {t : Term}, μ t < n → μ t < m →
      simplifyFix f goal n seen t = simplifyFix f goal m seen t := by
  intro n
  induction n with
  | zero => intro m seen t h1; omega
  | succ n ih =>
    intro m seen t h1 h2
    cases m with
    | zero => omega
    | succ m =>
      simp only [simplifyFix]
      split
      · rfl
      · cases e : f t with
        | error e' => rfl
        | ok r =>
          cases r with
          | none => rfl
          | some u =>
            have := h t u e
            simp only [bind, Except.bind]
            split
            · rfl
            · exact ih (by omega) (by omega)

end Carcara
