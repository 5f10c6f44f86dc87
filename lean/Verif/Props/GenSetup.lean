import Verif.Model.GenWrite
/-
C168: the setup of gen2coin's sample.
-/
namespace Verif

/-! ### The accounts of the sample -/

/-- The accounts of the sample ledger. -/
def genNames : List Str := [str "Assets", str "Assets:Bank", str "Assets:Bank:Checking", str "Assets:Bank:Savings", str "Expenses", str "Expenses:Electricity",
  str "Expenses:Groceries", str "Expenses:Heat", str "Expenses:Water", str "Income", str "Income:Interest", str "Income:Salary", str "Liabilities",
  str "Liabilities:Amex", str "Liabilities:MasterCard", str "Root", str "Unbalanced"]

def genCad : Com := ⟨0, str "CAD", 2⟩
def genCom : PCom := ⟨str "CAD", [], 2, false, []⟩

/-- What loading `sample1setup` gives. -/
def setupState : LoadState := ⟨[genCad], str "CAD", .commodity genCom ::
  [str "Assets:Bank:Checking", str "Assets:Bank:Savings", str "Liabilities:MasterCard", str "Liabilities:Amex", str "Income:Salary", str "Income:Interest",
    str "Expenses:Groceries", str "Expenses:Heat", str "Expenses:Electricity", str "Expenses:Water"].map fun n => .account ⟨n, [], str "CAD", none, [], [], []⟩⟩

set_option maxRecDepth 100000 in
set_option maxHeartbeats 4000000 in
theorem setup_loads (today : Today) : loadText today ⟨[], str "CAD", []⟩ sampleSetup = .ok setupState := by
  rfl

end Verif
