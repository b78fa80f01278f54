import Verif.Model.Curves

set_option autoImplicit false
namespace PyMarket
namespace Spec

/-! # Books that differ in their quantities only -/

/-- The same bids with the same sides and prices; the quantities may differ. -/
def SameOffers (df df' : DF) : Prop :=
  List.Forall₂ (fun r r' => r'.buying = r.buying ∧ r'.price = r.price ∧ r'.label = r.label) df df'

/-- By how much the quantities of the bids of one side (`true`: buying) change in total. -/
def sideShift (side : Bool) (df df' : DF) : ℚ :=
  ((df.zip df').map (fun p => if p.1.buying = side then |p.2.quantity - p.1.quantity| else 0)).sum

end Spec
end PyMarket
