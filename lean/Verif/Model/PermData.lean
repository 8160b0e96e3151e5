import Verif.Model.Basic

/-! # Precomputed permutations (`src/pd_permdata.h` 18-917), copied by script from the header. -/

namespace Plc.PermM

/-- `pdint_pcperm_p1` (pd_permdata.h 20-23). -/
def pc1 : List (List Nat) := [
  [0]]

/-- `pdint_pcperm_p2` (pd_permdata.h 25-29). -/
def pc2 : List (List Nat) := [
  [0,1], [1,0]]

/-- `pdint_pcperm_p3` (pd_permdata.h 31-39). -/
def pc3 : List (List Nat) := [
  [0,1,2], [0,2,1], [1,0,2], [1,2,0], [2,0,1], [2,1,0]]

/-- `pdint_pcperm_p4` (pd_permdata.h 41-67). -/
def pc4 : List (List Nat) := [
  [0,1,2,3], [0,1,3,2], [0,2,1,3], [0,2,3,1], [0,3,1,2], [0,3,2,1], [1,0,2,3], [1,0,3,2],
  [1,2,0,3], [1,2,3,0], [1,3,0,2], [1,3,2,0], [2,0,1,3], [2,0,3,1], [2,1,0,3], [2,1,3,0],
  [2,3,0,1], [2,3,1,0], [3,0,1,2], [3,0,2,1], [3,1,0,2], [3,1,2,0], [3,2,0,1], [3,2,1,0]]

/-- `pdint_pcperm_p5` (pd_permdata.h 69-191). -/
def pc5 : List (List Nat) := [
  [0,1,2,3,4], [0,1,2,4,3], [0,1,3,2,4], [0,1,3,4,2], [0,1,4,2,3], [0,1,4,3,2], [0,2,1,3,4],
  [0,2,1,4,3], [0,2,3,1,4], [0,2,3,4,1], [0,2,4,1,3], [0,2,4,3,1], [0,3,1,2,4], [0,3,1,4,2],
  [0,3,2,1,4], [0,3,2,4,1], [0,3,4,1,2], [0,3,4,2,1], [0,4,1,2,3], [0,4,1,3,2], [0,4,2,1,3],
  [0,4,2,3,1], [0,4,3,1,2], [0,4,3,2,1], [1,0,2,3,4], [1,0,2,4,3], [1,0,3,2,4], [1,0,3,4,2],
  [1,0,4,2,3], [1,0,4,3,2], [1,2,0,3,4], [1,2,0,4,3], [1,2,3,0,4], [1,2,3,4,0], [1,2,4,0,3],
  [1,2,4,3,0], [1,3,0,2,4], [1,3,0,4,2], [1,3,2,0,4], [1,3,2,4,0], [1,3,4,0,2], [1,3,4,2,0],
  [1,4,0,2,3], [1,4,0,3,2], [1,4,2,0,3], [1,4,2,3,0], [1,4,3,0,2], [1,4,3,2,0], [2,0,1,3,4],
  [2,0,1,4,3], [2,0,3,1,4], [2,0,3,4,1], [2,0,4,1,3], [2,0,4,3,1], [2,1,0,3,4], [2,1,0,4,3],
  [2,1,3,0,4], [2,1,3,4,0], [2,1,4,0,3], [2,1,4,3,0], [2,3,0,1,4], [2,3,0,4,1], [2,3,1,0,4],
  [2,3,1,4,0], [2,3,4,0,1], [2,3,4,1,0], [2,4,0,1,3], [2,4,0,3,1], [2,4,1,0,3], [2,4,1,3,0],
  [2,4,3,0,1], [2,4,3,1,0], [3,0,1,2,4], [3,0,1,4,2], [3,0,2,1,4], [3,0,2,4,1], [3,0,4,1,2],
  [3,0,4,2,1], [3,1,0,2,4], [3,1,0,4,2], [3,1,2,0,4], [3,1,2,4,0], [3,1,4,0,2], [3,1,4,2,0],
  [3,2,0,1,4], [3,2,0,4,1], [3,2,1,0,4], [3,2,1,4,0], [3,2,4,0,1], [3,2,4,1,0], [3,4,0,1,2],
  [3,4,0,2,1], [3,4,1,0,2], [3,4,1,2,0], [3,4,2,0,1], [3,4,2,1,0], [4,0,1,2,3], [4,0,1,3,2],
  [4,0,2,1,3], [4,0,2,3,1], [4,0,3,1,2], [4,0,3,2,1], [4,1,0,2,3], [4,1,0,3,2], [4,1,2,0,3],
  [4,1,2,3,0], [4,1,3,0,2], [4,1,3,2,0], [4,2,0,1,3], [4,2,0,3,1], [4,2,1,0,3], [4,2,1,3,0],
  [4,2,3,0,1], [4,2,3,1,0], [4,3,0,1,2], [4,3,0,2,1], [4,3,1,0,2], [4,3,1,2,0], [4,3,2,0,1],
  [4,3,2,1,0]]

/-- `pdint_pcperm_p6` (pd_permdata.h 193-915). -/
def pc6 : List (List Nat) := [
  [0,1,2,3,4,5], [0,1,2,3,5,4], [0,1,2,4,3,5], [0,1,2,4,5,3], [0,1,2,5,3,4], [0,1,2,5,4,3],
  [0,1,3,2,4,5], [0,1,3,2,5,4], [0,1,3,4,2,5], [0,1,3,4,5,2], [0,1,3,5,2,4], [0,1,3,5,4,2],
  [0,1,4,2,3,5], [0,1,4,2,5,3], [0,1,4,3,2,5], [0,1,4,3,5,2], [0,1,4,5,2,3], [0,1,4,5,3,2],
  [0,1,5,2,3,4], [0,1,5,2,4,3], [0,1,5,3,2,4], [0,1,5,3,4,2], [0,1,5,4,2,3], [0,1,5,4,3,2],
  [0,2,1,3,4,5], [0,2,1,3,5,4], [0,2,1,4,3,5], [0,2,1,4,5,3], [0,2,1,5,3,4], [0,2,1,5,4,3],
  [0,2,3,1,4,5], [0,2,3,1,5,4], [0,2,3,4,1,5], [0,2,3,4,5,1], [0,2,3,5,1,4], [0,2,3,5,4,1],
  [0,2,4,1,3,5], [0,2,4,1,5,3], [0,2,4,3,1,5], [0,2,4,3,5,1], [0,2,4,5,1,3], [0,2,4,5,3,1],
  [0,2,5,1,3,4], [0,2,5,1,4,3], [0,2,5,3,1,4], [0,2,5,3,4,1], [0,2,5,4,1,3], [0,2,5,4,3,1],
  [0,3,1,2,4,5], [0,3,1,2,5,4], [0,3,1,4,2,5], [0,3,1,4,5,2], [0,3,1,5,2,4], [0,3,1,5,4,2],
  [0,3,2,1,4,5], [0,3,2,1,5,4], [0,3,2,4,1,5], [0,3,2,4,5,1], [0,3,2,5,1,4], [0,3,2,5,4,1],
  [0,3,4,1,2,5], [0,3,4,1,5,2], [0,3,4,2,1,5], [0,3,4,2,5,1], [0,3,4,5,1,2], [0,3,4,5,2,1],
  [0,3,5,1,2,4], [0,3,5,1,4,2], [0,3,5,2,1,4], [0,3,5,2,4,1], [0,3,5,4,1,2], [0,3,5,4,2,1],
  [0,4,1,2,3,5], [0,4,1,2,5,3], [0,4,1,3,2,5], [0,4,1,3,5,2], [0,4,1,5,2,3], [0,4,1,5,3,2],
  [0,4,2,1,3,5], [0,4,2,1,5,3], [0,4,2,3,1,5], [0,4,2,3,5,1], [0,4,2,5,1,3], [0,4,2,5,3,1],
  [0,4,3,1,2,5], [0,4,3,1,5,2], [0,4,3,2,1,5], [0,4,3,2,5,1], [0,4,3,5,1,2], [0,4,3,5,2,1],
  [0,4,5,1,2,3], [0,4,5,1,3,2], [0,4,5,2,1,3], [0,4,5,2,3,1], [0,4,5,3,1,2], [0,4,5,3,2,1],
  [0,5,1,2,3,4], [0,5,1,2,4,3], [0,5,1,3,2,4], [0,5,1,3,4,2], [0,5,1,4,2,3], [0,5,1,4,3,2],
  [0,5,2,1,3,4], [0,5,2,1,4,3], [0,5,2,3,1,4], [0,5,2,3,4,1], [0,5,2,4,1,3], [0,5,2,4,3,1],
  [0,5,3,1,2,4], [0,5,3,1,4,2], [0,5,3,2,1,4], [0,5,3,2,4,1], [0,5,3,4,1,2], [0,5,3,4,2,1],
  [0,5,4,1,2,3], [0,5,4,1,3,2], [0,5,4,2,1,3], [0,5,4,2,3,1], [0,5,4,3,1,2], [0,5,4,3,2,1],
  [1,0,2,3,4,5], [1,0,2,3,5,4], [1,0,2,4,3,5], [1,0,2,4,5,3], [1,0,2,5,3,4], [1,0,2,5,4,3],
  [1,0,3,2,4,5], [1,0,3,2,5,4], [1,0,3,4,2,5], [1,0,3,4,5,2], [1,0,3,5,2,4], [1,0,3,5,4,2],
  [1,0,4,2,3,5], [1,0,4,2,5,3], [1,0,4,3,2,5], [1,0,4,3,5,2], [1,0,4,5,2,3], [1,0,4,5,3,2],
  [1,0,5,2,3,4], [1,0,5,2,4,3], [1,0,5,3,2,4], [1,0,5,3,4,2], [1,0,5,4,2,3], [1,0,5,4,3,2],
  [1,2,0,3,4,5], [1,2,0,3,5,4], [1,2,0,4,3,5], [1,2,0,4,5,3], [1,2,0,5,3,4], [1,2,0,5,4,3],
  [1,2,3,0,4,5], [1,2,3,0,5,4], [1,2,3,4,0,5], [1,2,3,4,5,0], [1,2,3,5,0,4], [1,2,3,5,4,0],
  [1,2,4,0,3,5], [1,2,4,0,5,3], [1,2,4,3,0,5], [1,2,4,3,5,0], [1,2,4,5,0,3], [1,2,4,5,3,0],
  [1,2,5,0,3,4], [1,2,5,0,4,3], [1,2,5,3,0,4], [1,2,5,3,4,0], [1,2,5,4,0,3], [1,2,5,4,3,0],
  [1,3,0,2,4,5], [1,3,0,2,5,4], [1,3,0,4,2,5], [1,3,0,4,5,2], [1,3,0,5,2,4], [1,3,0,5,4,2],
  [1,3,2,0,4,5], [1,3,2,0,5,4], [1,3,2,4,0,5], [1,3,2,4,5,0], [1,3,2,5,0,4], [1,3,2,5,4,0],
  [1,3,4,0,2,5], [1,3,4,0,5,2], [1,3,4,2,0,5], [1,3,4,2,5,0], [1,3,4,5,0,2], [1,3,4,5,2,0],
  [1,3,5,0,2,4], [1,3,5,0,4,2], [1,3,5,2,0,4], [1,3,5,2,4,0], [1,3,5,4,0,2], [1,3,5,4,2,0],
  [1,4,0,2,3,5], [1,4,0,2,5,3], [1,4,0,3,2,5], [1,4,0,3,5,2], [1,4,0,5,2,3], [1,4,0,5,3,2],
  [1,4,2,0,3,5], [1,4,2,0,5,3], [1,4,2,3,0,5], [1,4,2,3,5,0], [1,4,2,5,0,3], [1,4,2,5,3,0],
  [1,4,3,0,2,5], [1,4,3,0,5,2], [1,4,3,2,0,5], [1,4,3,2,5,0], [1,4,3,5,0,2], [1,4,3,5,2,0],
  [1,4,5,0,2,3], [1,4,5,0,3,2], [1,4,5,2,0,3], [1,4,5,2,3,0], [1,4,5,3,0,2], [1,4,5,3,2,0],
  [1,5,0,2,3,4], [1,5,0,2,4,3], [1,5,0,3,2,4], [1,5,0,3,4,2], [1,5,0,4,2,3], [1,5,0,4,3,2],
  [1,5,2,0,3,4], [1,5,2,0,4,3], [1,5,2,3,0,4], [1,5,2,3,4,0], [1,5,2,4,0,3], [1,5,2,4,3,0],
  [1,5,3,0,2,4], [1,5,3,0,4,2], [1,5,3,2,0,4], [1,5,3,2,4,0], [1,5,3,4,0,2], [1,5,3,4,2,0],
  [1,5,4,0,2,3], [1,5,4,0,3,2], [1,5,4,2,0,3], [1,5,4,2,3,0], [1,5,4,3,0,2], [1,5,4,3,2,0],
  [2,0,1,3,4,5], [2,0,1,3,5,4], [2,0,1,4,3,5], [2,0,1,4,5,3], [2,0,1,5,3,4], [2,0,1,5,4,3],
  [2,0,3,1,4,5], [2,0,3,1,5,4], [2,0,3,4,1,5], [2,0,3,4,5,1], [2,0,3,5,1,4], [2,0,3,5,4,1],
  [2,0,4,1,3,5], [2,0,4,1,5,3], [2,0,4,3,1,5], [2,0,4,3,5,1], [2,0,4,5,1,3], [2,0,4,5,3,1],
  [2,0,5,1,3,4], [2,0,5,1,4,3], [2,0,5,3,1,4], [2,0,5,3,4,1], [2,0,5,4,1,3], [2,0,5,4,3,1],
  [2,1,0,3,4,5], [2,1,0,3,5,4], [2,1,0,4,3,5], [2,1,0,4,5,3], [2,1,0,5,3,4], [2,1,0,5,4,3],
  [2,1,3,0,4,5], [2,1,3,0,5,4], [2,1,3,4,0,5], [2,1,3,4,5,0], [2,1,3,5,0,4], [2,1,3,5,4,0],
  [2,1,4,0,3,5], [2,1,4,0,5,3], [2,1,4,3,0,5], [2,1,4,3,5,0], [2,1,4,5,0,3], [2,1,4,5,3,0],
  [2,1,5,0,3,4], [2,1,5,0,4,3], [2,1,5,3,0,4], [2,1,5,3,4,0], [2,1,5,4,0,3], [2,1,5,4,3,0],
  [2,3,0,1,4,5], [2,3,0,1,5,4], [2,3,0,4,1,5], [2,3,0,4,5,1], [2,3,0,5,1,4], [2,3,0,5,4,1],
  [2,3,1,0,4,5], [2,3,1,0,5,4], [2,3,1,4,0,5], [2,3,1,4,5,0], [2,3,1,5,0,4], [2,3,1,5,4,0],
  [2,3,4,0,1,5], [2,3,4,0,5,1], [2,3,4,1,0,5], [2,3,4,1,5,0], [2,3,4,5,0,1], [2,3,4,5,1,0],
  [2,3,5,0,1,4], [2,3,5,0,4,1], [2,3,5,1,0,4], [2,3,5,1,4,0], [2,3,5,4,0,1], [2,3,5,4,1,0],
  [2,4,0,1,3,5], [2,4,0,1,5,3], [2,4,0,3,1,5], [2,4,0,3,5,1], [2,4,0,5,1,3], [2,4,0,5,3,1],
  [2,4,1,0,3,5], [2,4,1,0,5,3], [2,4,1,3,0,5], [2,4,1,3,5,0], [2,4,1,5,0,3], [2,4,1,5,3,0],
  [2,4,3,0,1,5], [2,4,3,0,5,1], [2,4,3,1,0,5], [2,4,3,1,5,0], [2,4,3,5,0,1], [2,4,3,5,1,0],
  [2,4,5,0,1,3], [2,4,5,0,3,1], [2,4,5,1,0,3], [2,4,5,1,3,0], [2,4,5,3,0,1], [2,4,5,3,1,0],
  [2,5,0,1,3,4], [2,5,0,1,4,3], [2,5,0,3,1,4], [2,5,0,3,4,1], [2,5,0,4,1,3], [2,5,0,4,3,1],
  [2,5,1,0,3,4], [2,5,1,0,4,3], [2,5,1,3,0,4], [2,5,1,3,4,0], [2,5,1,4,0,3], [2,5,1,4,3,0],
  [2,5,3,0,1,4], [2,5,3,0,4,1], [2,5,3,1,0,4], [2,5,3,1,4,0], [2,5,3,4,0,1], [2,5,3,4,1,0],
  [2,5,4,0,1,3], [2,5,4,0,3,1], [2,5,4,1,0,3], [2,5,4,1,3,0], [2,5,4,3,0,1], [2,5,4,3,1,0],
  [3,0,1,2,4,5], [3,0,1,2,5,4], [3,0,1,4,2,5], [3,0,1,4,5,2], [3,0,1,5,2,4], [3,0,1,5,4,2],
  [3,0,2,1,4,5], [3,0,2,1,5,4], [3,0,2,4,1,5], [3,0,2,4,5,1], [3,0,2,5,1,4], [3,0,2,5,4,1],
  [3,0,4,1,2,5], [3,0,4,1,5,2], [3,0,4,2,1,5], [3,0,4,2,5,1], [3,0,4,5,1,2], [3,0,4,5,2,1],
  [3,0,5,1,2,4], [3,0,5,1,4,2], [3,0,5,2,1,4], [3,0,5,2,4,1], [3,0,5,4,1,2], [3,0,5,4,2,1],
  [3,1,0,2,4,5], [3,1,0,2,5,4], [3,1,0,4,2,5], [3,1,0,4,5,2], [3,1,0,5,2,4], [3,1,0,5,4,2],
  [3,1,2,0,4,5], [3,1,2,0,5,4], [3,1,2,4,0,5], [3,1,2,4,5,0], [3,1,2,5,0,4], [3,1,2,5,4,0],
  [3,1,4,0,2,5], [3,1,4,0,5,2], [3,1,4,2,0,5], [3,1,4,2,5,0], [3,1,4,5,0,2], [3,1,4,5,2,0],
  [3,1,5,0,2,4], [3,1,5,0,4,2], [3,1,5,2,0,4], [3,1,5,2,4,0], [3,1,5,4,0,2], [3,1,5,4,2,0],
  [3,2,0,1,4,5], [3,2,0,1,5,4], [3,2,0,4,1,5], [3,2,0,4,5,1], [3,2,0,5,1,4], [3,2,0,5,4,1],
  [3,2,1,0,4,5], [3,2,1,0,5,4], [3,2,1,4,0,5], [3,2,1,4,5,0], [3,2,1,5,0,4], [3,2,1,5,4,0],
  [3,2,4,0,1,5], [3,2,4,0,5,1], [3,2,4,1,0,5], [3,2,4,1,5,0], [3,2,4,5,0,1], [3,2,4,5,1,0],
  [3,2,5,0,1,4], [3,2,5,0,4,1], [3,2,5,1,0,4], [3,2,5,1,4,0], [3,2,5,4,0,1], [3,2,5,4,1,0],
  [3,4,0,1,2,5], [3,4,0,1,5,2], [3,4,0,2,1,5], [3,4,0,2,5,1], [3,4,0,5,1,2], [3,4,0,5,2,1],
  [3,4,1,0,2,5], [3,4,1,0,5,2], [3,4,1,2,0,5], [3,4,1,2,5,0], [3,4,1,5,0,2], [3,4,1,5,2,0],
  [3,4,2,0,1,5], [3,4,2,0,5,1], [3,4,2,1,0,5], [3,4,2,1,5,0], [3,4,2,5,0,1], [3,4,2,5,1,0],
  [3,4,5,0,1,2], [3,4,5,0,2,1], [3,4,5,1,0,2], [3,4,5,1,2,0], [3,4,5,2,0,1], [3,4,5,2,1,0],
  [3,5,0,1,2,4], [3,5,0,1,4,2], [3,5,0,2,1,4], [3,5,0,2,4,1], [3,5,0,4,1,2], [3,5,0,4,2,1],
  [3,5,1,0,2,4], [3,5,1,0,4,2], [3,5,1,2,0,4], [3,5,1,2,4,0], [3,5,1,4,0,2], [3,5,1,4,2,0],
  [3,5,2,0,1,4], [3,5,2,0,4,1], [3,5,2,1,0,4], [3,5,2,1,4,0], [3,5,2,4,0,1], [3,5,2,4,1,0],
  [3,5,4,0,1,2], [3,5,4,0,2,1], [3,5,4,1,0,2], [3,5,4,1,2,0], [3,5,4,2,0,1], [3,5,4,2,1,0],
  [4,0,1,2,3,5], [4,0,1,2,5,3], [4,0,1,3,2,5], [4,0,1,3,5,2], [4,0,1,5,2,3], [4,0,1,5,3,2],
  [4,0,2,1,3,5], [4,0,2,1,5,3], [4,0,2,3,1,5], [4,0,2,3,5,1], [4,0,2,5,1,3], [4,0,2,5,3,1],
  [4,0,3,1,2,5], [4,0,3,1,5,2], [4,0,3,2,1,5], [4,0,3,2,5,1], [4,0,3,5,1,2], [4,0,3,5,2,1],
  [4,0,5,1,2,3], [4,0,5,1,3,2], [4,0,5,2,1,3], [4,0,5,2,3,1], [4,0,5,3,1,2], [4,0,5,3,2,1],
  [4,1,0,2,3,5], [4,1,0,2,5,3], [4,1,0,3,2,5], [4,1,0,3,5,2], [4,1,0,5,2,3], [4,1,0,5,3,2],
  [4,1,2,0,3,5], [4,1,2,0,5,3], [4,1,2,3,0,5], [4,1,2,3,5,0], [4,1,2,5,0,3], [4,1,2,5,3,0],
  [4,1,3,0,2,5], [4,1,3,0,5,2], [4,1,3,2,0,5], [4,1,3,2,5,0], [4,1,3,5,0,2], [4,1,3,5,2,0],
  [4,1,5,0,2,3], [4,1,5,0,3,2], [4,1,5,2,0,3], [4,1,5,2,3,0], [4,1,5,3,0,2], [4,1,5,3,2,0],
  [4,2,0,1,3,5], [4,2,0,1,5,3], [4,2,0,3,1,5], [4,2,0,3,5,1], [4,2,0,5,1,3], [4,2,0,5,3,1],
  [4,2,1,0,3,5], [4,2,1,0,5,3], [4,2,1,3,0,5], [4,2,1,3,5,0], [4,2,1,5,0,3], [4,2,1,5,3,0],
  [4,2,3,0,1,5], [4,2,3,0,5,1], [4,2,3,1,0,5], [4,2,3,1,5,0], [4,2,3,5,0,1], [4,2,3,5,1,0],
  [4,2,5,0,1,3], [4,2,5,0,3,1], [4,2,5,1,0,3], [4,2,5,1,3,0], [4,2,5,3,0,1], [4,2,5,3,1,0],
  [4,3,0,1,2,5], [4,3,0,1,5,2], [4,3,0,2,1,5], [4,3,0,2,5,1], [4,3,0,5,1,2], [4,3,0,5,2,1],
  [4,3,1,0,2,5], [4,3,1,0,5,2], [4,3,1,2,0,5], [4,3,1,2,5,0], [4,3,1,5,0,2], [4,3,1,5,2,0],
  [4,3,2,0,1,5], [4,3,2,0,5,1], [4,3,2,1,0,5], [4,3,2,1,5,0], [4,3,2,5,0,1], [4,3,2,5,1,0],
  [4,3,5,0,1,2], [4,3,5,0,2,1], [4,3,5,1,0,2], [4,3,5,1,2,0], [4,3,5,2,0,1], [4,3,5,2,1,0],
  [4,5,0,1,2,3], [4,5,0,1,3,2], [4,5,0,2,1,3], [4,5,0,2,3,1], [4,5,0,3,1,2], [4,5,0,3,2,1],
  [4,5,1,0,2,3], [4,5,1,0,3,2], [4,5,1,2,0,3], [4,5,1,2,3,0], [4,5,1,3,0,2], [4,5,1,3,2,0],
  [4,5,2,0,1,3], [4,5,2,0,3,1], [4,5,2,1,0,3], [4,5,2,1,3,0], [4,5,2,3,0,1], [4,5,2,3,1,0],
  [4,5,3,0,1,2], [4,5,3,0,2,1], [4,5,3,1,0,2], [4,5,3,1,2,0], [4,5,3,2,0,1], [4,5,3,2,1,0],
  [5,0,1,2,3,4], [5,0,1,2,4,3], [5,0,1,3,2,4], [5,0,1,3,4,2], [5,0,1,4,2,3], [5,0,1,4,3,2],
  [5,0,2,1,3,4], [5,0,2,1,4,3], [5,0,2,3,1,4], [5,0,2,3,4,1], [5,0,2,4,1,3], [5,0,2,4,3,1],
  [5,0,3,1,2,4], [5,0,3,1,4,2], [5,0,3,2,1,4], [5,0,3,2,4,1], [5,0,3,4,1,2], [5,0,3,4,2,1],
  [5,0,4,1,2,3], [5,0,4,1,3,2], [5,0,4,2,1,3], [5,0,4,2,3,1], [5,0,4,3,1,2], [5,0,4,3,2,1],
  [5,1,0,2,3,4], [5,1,0,2,4,3], [5,1,0,3,2,4], [5,1,0,3,4,2], [5,1,0,4,2,3], [5,1,0,4,3,2],
  [5,1,2,0,3,4], [5,1,2,0,4,3], [5,1,2,3,0,4], [5,1,2,3,4,0], [5,1,2,4,0,3], [5,1,2,4,3,0],
  [5,1,3,0,2,4], [5,1,3,0,4,2], [5,1,3,2,0,4], [5,1,3,2,4,0], [5,1,3,4,0,2], [5,1,3,4,2,0],
  [5,1,4,0,2,3], [5,1,4,0,3,2], [5,1,4,2,0,3], [5,1,4,2,3,0], [5,1,4,3,0,2], [5,1,4,3,2,0],
  [5,2,0,1,3,4], [5,2,0,1,4,3], [5,2,0,3,1,4], [5,2,0,3,4,1], [5,2,0,4,1,3], [5,2,0,4,3,1],
  [5,2,1,0,3,4], [5,2,1,0,4,3], [5,2,1,3,0,4], [5,2,1,3,4,0], [5,2,1,4,0,3], [5,2,1,4,3,0],
  [5,2,3,0,1,4], [5,2,3,0,4,1], [5,2,3,1,0,4], [5,2,3,1,4,0], [5,2,3,4,0,1], [5,2,3,4,1,0],
  [5,2,4,0,1,3], [5,2,4,0,3,1], [5,2,4,1,0,3], [5,2,4,1,3,0], [5,2,4,3,0,1], [5,2,4,3,1,0],
  [5,3,0,1,2,4], [5,3,0,1,4,2], [5,3,0,2,1,4], [5,3,0,2,4,1], [5,3,0,4,1,2], [5,3,0,4,2,1],
  [5,3,1,0,2,4], [5,3,1,0,4,2], [5,3,1,2,0,4], [5,3,1,2,4,0], [5,3,1,4,0,2], [5,3,1,4,2,0],
  [5,3,2,0,1,4], [5,3,2,0,4,1], [5,3,2,1,0,4], [5,3,2,1,4,0], [5,3,2,4,0,1], [5,3,2,4,1,0],
  [5,3,4,0,1,2], [5,3,4,0,2,1], [5,3,4,1,0,2], [5,3,4,1,2,0], [5,3,4,2,0,1], [5,3,4,2,1,0],
  [5,4,0,1,2,3], [5,4,0,1,3,2], [5,4,0,2,1,3], [5,4,0,2,3,1], [5,4,0,3,1,2], [5,4,0,3,2,1],
  [5,4,1,0,2,3], [5,4,1,0,3,2], [5,4,1,2,0,3], [5,4,1,2,3,0], [5,4,1,3,0,2], [5,4,1,3,2,0],
  [5,4,2,0,1,3], [5,4,2,0,3,1], [5,4,2,1,0,3], [5,4,2,1,3,0], [5,4,2,3,0,1], [5,4,2,3,1,0],
  [5,4,3,0,1,2], [5,4,3,0,2,1], [5,4,3,1,0,2], [5,4,3,1,2,0], [5,4,3,2,0,1], [5,4,3,2,1,0]]

/-- `pd_n_pc_perms` (pd_permdata.h 18). -/
def nPc : List Nat := [0, 1, 2, 6, 24, 120, 720]

/-- `pd_pc_perm` (pd_permdata.h 917): entry 0 is `NULL`, here an empty table. -/
def pcTable : List (List (List Nat)) := [[], pc1, pc2, pc3, pc4, pc5, pc6]

end Plc.PermM
