import Verif
open Lean
run_cmd do
  let env ← getEnv
  let h ← IO.FS.Handle.mk "/tmp/seedwork/deps.txt" .write
  for (n, c) in env.constants.map₁.toList do
    if (`Verif).isPrefixOf n then
      let m := (env.getModuleIdxFor? n).map (fun i => env.header.moduleNames[i.toNat]!) |>.getD `none
      let mut used := c.type.getUsedConstants
      if let some v := c.value? (allowOpaque := true) then used := used ++ v.getUsedConstants
      let u := used.filter (fun x => (`Verif).isPrefixOf x)
      h.putStrLn s!"{m}|{n}|{" ".intercalate (u.toList.map toString)}"
