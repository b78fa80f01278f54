import Verif.Model.Basic

/-! # Model of `pymarket/transactions/transactions.py` -/

set_option autoImplicit false

namespace PyMarket

/-- One transaction, the columns of `pymarket/transactions/transactions.py:23`. `source = -1`
means "no clear second party" (lines 42-45). -/
structure Transaction where
  bid : ℕ
  quantity : ℚ
  price : ℚ
  source : ℤ
  active : Bool
  deriving DecidableEq, Repr

/-- `TransactionManager` (`pymarket/transactions/transactions.py:5-29`). -/
structure TransactionManager where
  nTrans : ℕ
  trans : List Transaction
  deriving DecidableEq, Repr

namespace TransactionManager

/-- `TransactionManager.__init__` (`pymarket/transactions/transactions.py:25-29`). -/
def init : TransactionManager := { nTrans := 0, trans := [] }

/-- `TransactionManager.add_transaction` (`pymarket/transactions/transactions.py:31-71`):
new state and returned id. -/
def addTransaction (tm : TransactionManager) (t : Transaction) : TransactionManager × ℕ :=
  let n := tm.nTrans + 1
  ({ nTrans := n, trans := tm.trans ++ [t] }, n - 1)

/-- Repeated `add_transaction` over a Python `for` loop
(`pymarket/transactions/transactions.py:139-142` and the loops of the mechanisms). -/
def addAll (tm : TransactionManager) : List Transaction → TransactionManager
  | [] => tm
  | t :: ts => addAll (tm.addTransaction t).1 ts

/-- `TransactionManager.get_df` (`pymarket/transactions/transactions.py:73-99`): the rows, whose
index labels are their positions. -/
def getDf (tm : TransactionManager) : List Transaction := tm.trans

/-- `TransactionManager.merge` (`pymarket/transactions/transactions.py:101-144`). The `assert
isinstance` is discharged by typing. The operands are Python objects that the method does not
write to, hence they are unchanged values here. -/
def merge (self other : TransactionManager) : TransactionManager :=
  (init.addAll self.trans).addAll other.trans

end TransactionManager

end PyMarket
