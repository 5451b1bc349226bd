import Verif.Model.Base
import Mathlib.Data.List.Forall2

/-! # Facts about `mapRes` -/

namespace Carcara

theorem mapRes_ok {α β : Type} {f : α → Res β} : ∀ {l : List α} {bs : List β},
    mapRes f l = .ok bs ↔ List.Forall₂ (fun a b => f a = .ok b) l bs
  | [], bs => by
    simp only [mapRes, ok_inj]
    constructor
    · rintro rfl; exact .nil
    · intro h; cases h; rfl
  | a :: l, bs => by
    simp only [mapRes, bind_ok, ok_inj]
    constructor
    · rintro ⟨b, hb, bs', hbs, rfl⟩; exact .cons hb (mapRes_ok.1 hbs)
    · intro h
      cases h with
      | cons hb hbs => exact ⟨_, hb, _, mapRes_ok.2 hbs, rfl⟩

end Carcara
