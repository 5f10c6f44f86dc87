import Verif.Model.Import
import Verif.Model.ListCmd
/-
Model of the accounts found by their OFX id: coin.go:313-320, and the listing `ofx2coin -ids`.
-/
namespace Verif

/-- `FindAccountOfxId` (coin.go:313-320); `accts` is the account map in its iteration order, which differs from run to run. -/
def findAccountOfxId (accts : List PAcct) (id : Str) : Option Str :=
  (accts.find? fun a => decide (a.ofxAcctId = id)).map (·.fullName)

/-- The line printed for an account by `ofx2coin -ids` (cmd/ofx2coin/main.go:45-51), if any. -/
def ofxIdLine (a : PAcct) : Option Str :=
  if a.ofxAcctId ≠ [] then
    if a.ofxBankId ≠ [] then some (a.ofxBankId ++ str "/" ++ a.ofxAcctId ++ str " " ++ a.fullName)
    else some (a.ofxAcctId ++ str " " ++ a.fullName)
  else none

/-- `ofx2coin -ids` (cmd/ofx2coin/main.go:43-54). -/
def ofxIdsCmd (accts : List PAcct) : List Str := (inOrder (·.fullName) accts).filterMap ofxIdLine

end Verif
