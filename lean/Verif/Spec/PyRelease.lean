import Verif.Model.PyRelease
import Verif.Spec.Repository
import Verif.Spec.ReleaseManager
/-!
# What releasing and forwarding from Python should do
-/
namespace Rez.Spec.PyRelease
open Rez Rez.Repository Rez.PackageOrder

/-- The texts of the versions of a family in these directories. -/
def versionsOf (roots : List Root) (name : Str) : List Str :=
  (roots.flatMap fun r => Spec.Repository.ofFamily r name).filterMap fun p => p.version.map Version.asStr

/-- The lines that a wrapper has in a shell, for a tool. -/
def lines (tool : Str) (shell : Str) : List Str :=
  if shell = c!"powershell" ∨ shell = c!"pwsh" then
    [c!"# rez-next forward wrapper for " ++ tool, c!"function Invoke-RezTool {", c!"    & rez-next forward " ++ tool ++ c!" @args",
     c!"}", c!"Set-Alias -Name " ++ tool ++ c!" -Value Invoke-RezTool", []]
  else if shell = c!"cmd" then
    [c!"@echo off", c!"rem rez-next forward wrapper for " ++ tool, c!"rez-next forward " ++ tool ++ c!" %*", []]
  else if shell = c!"fish" then
    [c!"# rez-next forward wrapper for " ++ tool, c!"function " ++ tool, c!"    rez-next forward " ++ tool ++ c!" $argv", c!"end", []]
  else
    [c!"#!/usr/bin/env bash", c!"# rez-next forward wrapper for " ++ tool, c!"exec rez-next forward " ++ tool ++ c!" \"$@\"", []]

end Rez.Spec.PyRelease
