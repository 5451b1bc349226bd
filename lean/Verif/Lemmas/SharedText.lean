import Verif.Lemmas.SharedPrinter
import Verif.Lemmas.Printer
import Verif.Lemmas.ProofPrinter

/-!
# The characters that are printed with sharing
-/

namespace Carcara

variable {S : Sharing} {strict : Bool}

/-- What is printed is read as these tokens, and the same terms get names. -/
def PrintsAs (p : Res (List Char × List Term)) (q : List Token × List Term) : Prop := ∃ out, p = .ok (out, q.2) ∧ Text out q.1

def PrintsAsL (p : Res (List (List Char) × List Term)) (q : List (List Token) × List Term) : Prop := ∃ outs, p = .ok (outs, q.2) ∧ List.Forall₂ Text outs q.1

theorem text_shareName (hS : S.OK) (i : Nat) : Text (S.nameChars i) [.symbol (S.name i)] := by
  have := text_plain (hS.plain i)
  rwa [Sharing.name, String.toList_ofList] at this

theorem text_bang : Text ['!'] [.reserved .bang] := text_word (by decide +kernel)

theorem printsAs_wrap (hS : S.OK) {L : List Term} {t : Term} {raw : List Term → Res (List Char × List Term)} {ts : List Term → List Token × List Term}
    (h : ∀ L, PrintsAs (raw L) (ts L)) : PrintsAs (S.chars L t raw) (S.tokens L t ts) := by
  rw [Sharing.chars, Sharing.tokens]
  by_cases hs : S.share L t = true
  · rw [if_pos hs, if_pos hs]
    cases hi : L.idxOf? t with
    | some i => exact ⟨_, rfl, text_shareName hS _⟩
    | none =>
      obtain ⟨out, e, ht⟩ := h (L ++ [t])
      refine ⟨_, by simp only; rw [e]; rfl, ?_⟩
      simpa [tailChars] using text_parens text_bang (.cons ht (.cons (text_keyword "named" (by decide +kernel)) (.cons (text_shareName hS L.length) .nil)))
  · rw [if_neg hs, if_neg hs]
    exact h L

theorem of_unnamed_nil {t : Term} {p : Prop} (h : unnamed [] t p) : p := h

theorem sharedTokensL_isEmpty {as L : List Term} {outs : List (List Char)} (h : List.Forall₂ Text outs (Term.sharedTokensL S strict as L).1) :
    outs = [] ↔ as.isEmpty = true := by
  cases as with
  | nil => rw [Term.sharedTokensL] at h; cases h; simp
  | cons a as => rw [Term.sharedTokensL] at h; cases h; simp

mutual
theorem prints_shared (hS : S.OK) : ∀ {t : Term}, t.Readable [] → ∀ L, PrintsAs (printShared S strict t L) (t.sharedTokens S strict L)
  | .const c, h, L => by
    rw [Term.Readable] at h
    replace h := of_unnamed_nil h
    rw [printShared, Term.sharedTokens]
    cases strict
    · exact ⟨_, rfl, text_const h⟩
    · exact ⟨_, rfl, text_strict h⟩
  | .var n s, h, L => by
    rw [Term.Readable] at h
    replace h := of_unnamed_nil h
    rw [printShared, Term.sharedTokens]
    obtain ⟨o, e, ht⟩ := reads_name h
    exact ⟨o, by rw [e]; rfl, ht⟩
  | .app f as, h, L => by
    rw [Term.Readable] at h
    replace h := of_unnamed_nil h
    rw [printShared, Term.sharedTokens]
    refine printsAs_wrap hS fun L => ?_
    obtain ⟨of, hf, tf⟩ := prints_shared hS h.1 L
    obtain ⟨oa, ha, ta⟩ := prints_sharedL hS h.2 (f.sharedTokens S strict L).2
    exact ⟨_, by rw [hf]; show (printSharedL S strict as (f.sharedTokens S strict L).2 >>= _) = _; rw [ha]; rfl, text_parens tf ta⟩
  | .op o as, h, L => by
    rw [Term.Readable] at h
    replace h := of_unnamed_nil h
    rw [printShared, Term.sharedTokens]
    refine printsAs_wrap hS fun L => ?_
    obtain ⟨oa, ha, ta⟩ := prints_sharedL hS h L
    rw [ha]
    show PrintsAs (if oa = [] then _ else _) _
    by_cases he : oa = []
    · rw [if_pos he]
      simp only [if_pos ((sharedTokensL_isEmpty ta).1 he)]
      exact ⟨_, rfl, text_op o⟩
    · rw [if_neg he]
      simp only [if_neg (mt (sharedTokensL_isEmpty ta).2 he)]
      exact ⟨_, rfl, text_parens (text_op o) ta⟩
  | .binder b bs t, h, L => by
    rw [Term.Readable] at h
    replace h := of_unnamed_nil h
    rw [printShared, Term.sharedTokens]
    refine printsAs_wrap hS fun L => ?_
    obtain ⟨ob, hb, tb⟩ := reads_sortBindings h.1
    obtain ⟨ot, ht, tt⟩ := prints_shared hS h.2 L
    refine ⟨_, by rw [hb]; show (printShared S strict t L >>= _) = _; rw [ht]; rfl, ?_⟩
    rw [bindingList_eq]
    exact text_two (text_binder b) (text_list tb) tt
  | .let_ bs t, h, L => by
    rw [Term.Readable] at h
    replace h := of_unnamed_nil h
    rw [printShared, Term.sharedTokens]
    refine printsAs_wrap hS fun L => ?_
    obtain ⟨ob, hb, tb⟩ := prints_sharedB hS h.1 L
    obtain ⟨ot, ht, tt⟩ := prints_shared hS h.2 (Term.sharedTokensB S strict bs L).2
    refine ⟨_, by rw [hb]; show (printShared S strict t (Term.sharedTokensB S strict bs L).2 >>= _) = _; rw [ht]; rfl, ?_⟩
    rw [bindingList_eq]
    exact text_two (a := "let".toList) (text_word (by decide +kernel)) (text_list tb) tt
  | .paramOp o ps as, h, L => by
    rw [Term.Readable] at h
    replace h := of_unnamed_nil h
    rw [printShared, Term.sharedTokens]
    refine printsAs_wrap hS fun L => ?_
    obtain ⟨op, hp, tp⟩ := prints_sharedL hS h.1 L
    obtain ⟨oa, ha, ta⟩ := prints_sharedL hS h.2 (Term.sharedTokensL S strict ps L).2
    have hh : Text ("(_ ".toList ++ o.name.toList ++ tailChars op) (parens ([.reserved .underscore] :: [.symbol o.name] :: (Term.sharedTokensL S strict ps L).1)) := by
      simpa [tailChars] using text_parens text_underscore (.cons (text_paramOp o) tp)
    rw [hp]
    show PrintsAs (printSharedL S strict as (Term.sharedTokensL S strict ps L).2 >>= _) _
    rw [ha]
    show PrintsAs (if oa = [] then _ else _) _
    by_cases he : oa = []
    · rw [if_pos he]
      simp only [if_pos ((sharedTokensL_isEmpty ta).1 he)]
      exact ⟨_, rfl, hh⟩
    · rw [if_neg he]
      simp only [if_neg (mt (sharedTokensL_isEmpty ta).2 he)]
      exact ⟨_, rfl, text_parens hh ta⟩
theorem prints_sharedL (hS : S.OK) : ∀ {ts : List Term}, Term.ReadableL [] ts → ∀ L, PrintsAsL (printSharedL S strict ts L) (Term.sharedTokensL S strict ts L)
  | [], _, L => ⟨[], by rw [printSharedL, Term.sharedTokensL], by rw [Term.sharedTokensL]; exact .nil⟩
  | t :: ts, h, L => by
    rw [Term.ReadableL] at h
    obtain ⟨oa, ha, ta⟩ := prints_shared hS h.1 L
    obtain ⟨os, hs, ts'⟩ := prints_sharedL hS h.2 (t.sharedTokens S strict L).2
    refine ⟨oa :: os, ?_, by rw [Term.sharedTokensL]; exact .cons ta ts'⟩
    rw [printSharedL, ha]
    show (printSharedL S strict ts (t.sharedTokens S strict L).2 >>= _) = _
    rw [hs, Term.sharedTokensL]
    rfl
theorem prints_sharedB (hS : S.OK) : ∀ {bs : List (String × Term)}, Term.ReadableB [] bs → ∀ L, PrintsAsL (printSharedB S strict bs L) (Term.sharedTokensB S strict bs L)
  | [], _, L => ⟨[], by rw [printSharedB, Term.sharedTokensB], by rw [Term.sharedTokensB]; exact .nil⟩
  | (x, v) :: bs, h, L => by
    rw [Term.ReadableB] at h
    obtain ⟨oa, ha, ta⟩ := prints_shared hS h.2.1 L
    obtain ⟨ob, hb, tb⟩ := reads_binding h.1 ta
    obtain ⟨os, hs, ts'⟩ := prints_sharedB hS h.2.2 (v.sharedTokens S strict L).2
    refine ⟨ob :: os, ?_, by rw [Term.sharedTokensB]; exact .cons tb ts'⟩
    rw [printSharedB, ha]
    show (bindingChars x oa >>= _) = _
    rw [hb]
    show (printSharedB S strict bs (v.sharedTokens S strict L).2 >>= _) = _
    rw [hs, Term.sharedTokensB]
    rfl
end

end Carcara
