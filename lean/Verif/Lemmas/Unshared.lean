import Verif.Model.LiaInstances
import Verif.Lemmas.SliceFiles

/-!
# Without shared terms, the printer with sharing is the printer
-/

namespace Carcara

/-- No term is shared. -/
def Sharing.None (S : Sharing) : Prop := ∀ L t, S.share L t = false

theorem Sharing.None.chars {S : Sharing} (h : S.None) (L : List Term) (t : Term) (raw : List Term → Res (List Char × List Term)) :
    S.chars L t raw = raw L := by
  rw [Sharing.chars, h L t]
  rfl

/-- A result together with a list that is not changed. -/
def Res.with {α β : Type} (r : Res α) (b : β) : Res (α × β) := r >>= fun a => .ok (a, b)

section
variable {S : Sharing} (h : S.None) (strict : Bool)
include h

mutual
theorem printShared_none : ∀ (t : Term) (L : List Term), printShared S strict t L = (printTerm strict [] t).with L
  | .const c, L => by rw [printShared, printTerm, orDefined]; rfl
  | .var n s, L => by rw [printShared, printTerm, orDefined]; rfl
  | .app f as, L => by
    rw [printShared, h.chars, printTerm, printShared_none f L]
    cases printTerm strict [] f with
    | error e => rfl
    | ok o =>
      show (printSharedL S strict as L >>= _) = _
      rw [printSharedL_none as L]
      cases e : printTerms strict [] as <;> simp [orDefined, e] <;> rfl
  | .op o as, L => by
    rw [printShared, h.chars, printTerm, printSharedL_none as L]
    cases e : printTerms strict [] as with
    | error e => rfl
    | ok as =>
      cases as <;> rfl
  | .binder b bs t, L => by
    rw [printShared, h.chars, printTerm]
    cases sortBindings bs with
    | error e => rfl
    | ok bs =>
      show (printShared S strict t L >>= _) = _
      rw [printShared_none t L]
      cases printTerm strict [] t <;> rfl
  | .let_ bs t, L => by
    rw [printShared, h.chars, printTerm, printSharedB_none bs L]
    cases printBindings strict [] bs with
    | error e => rfl
    | ok bs =>
      show (printShared S strict t L >>= _) = _
      rw [printShared_none t L]
      cases printTerm strict [] t <;> rfl
  | .paramOp o ps as, L => by
    rw [printShared, h.chars, printTerm, printSharedL_none ps L]
    cases printTerms strict [] ps with
    | error e => rfl
    | ok ps =>
      show (printSharedL S strict as L >>= _) = _
      rw [printSharedL_none as L]
      cases printTerms strict [] as with
      | error e => rfl
      | ok as =>
        cases as <;> rfl
theorem printSharedL_none : ∀ (ts : List Term) (L : List Term), printSharedL S strict ts L = (printTerms strict [] ts).with L
  | [], L => by rw [printSharedL, printTerms]; rfl
  | t :: ts, L => by
    rw [printSharedL, printTerms, printShared_none t L]
    cases printTerm strict [] t with
    | error e => rfl
    | ok o =>
      show (printSharedL S strict ts L >>= _) = _
      rw [printSharedL_none ts L]
      cases printTerms strict [] ts <;> rfl
theorem printSharedB_none : ∀ (bs : List (String × Term)) (L : List Term), printSharedB S strict bs L = (printBindings strict [] bs).with L
  | [], L => by rw [printSharedB, printBindings]; rfl
  | (x, v) :: bs, L => by
    rw [printSharedB, printBindings, printShared_none v L]
    cases printTerm strict [] v with
    | error e => rfl
    | ok o =>
      show (bindingChars x o >>= fun b => printSharedB S strict bs L >>= fun r => .ok (b :: r.1, r.2)) =
        Res.with (bindingChars x o >>= fun b => printBindings strict [] bs >>= fun bs => .ok (b :: bs)) L
      cases bindingChars x o with
      | error e => rfl
      | ok b =>
        show (printSharedB S strict bs L >>= fun r => .ok (b :: r.1, r.2)) = Res.with (printBindings strict [] bs >>= fun bs => .ok (b :: bs)) L
        rw [printSharedB_none bs L]
        cases printBindings strict [] bs <;> rfl
end

/-- The assertions are those of the negated literals. -/
theorem printNegatedShared_none : ∀ (ts L : List Term), printNegatedShared S ts L = mapRes printAssert (ts.map fun t => .op .not [t])
  | [], L => rfl
  | t :: ts, L => by
    have e : printAssert (.op .not [t]) = printTerm true [] t >>= fun o => .ok ("(assert (not ".toList ++ o ++ "))".toList) := by
      rw [printAssert, printTerm, printTerms, printTerms]
      cases printTerm true [] t with
      | error e => rfl
      | ok o => simp [orDefined, tailChars, bind, Except.bind, Op.name]
    rw [printNegatedShared, printShared_none h true t L, List.map_cons, mapRes, e]
    cases printTerm true [] t with
    | error e => rfl
    | ok o =>
      show (printNegatedShared S ts L >>= _) = (mapRes printAssert _ >>= _)
      rw [printNegatedShared_none ts L]
end

end Carcara
