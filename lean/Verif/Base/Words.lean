import Verif.Base.Text
/-!
# Words between white space
-/
namespace Rez

/-- `str::split_whitespace`. -/
def splitWs : Str → List Str
  | [] => []
  | c :: s =>
    if isWs c then splitWs s
    else
      match s with
      | [] => [[c]]
      | d :: _ =>
        if isWs d then [c] :: splitWs s
        else
          match splitWs s with
          | [] => [[c]]
          | x :: l => (c :: x) :: l

end Rez
