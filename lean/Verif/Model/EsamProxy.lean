import Verif.Model.Esam

/-!
Model of the proxy actions of `sam_learning/learners/esam.py`: `construct_proxy_action`,
`handle_lifted_action_instances`, `encode` and `decode`. In the pinned commit registering the first
encoder raises (C95), so the state after a registration is that of the program in which line 322 finds a
list; the closures are those of the file.
-/
namespace Model

/-- esam.py:31-35 `ProxyActionData`. -/
structure ProxyData where
  pre : Finset Lit
  eff : Finset Lit
  params : List (String × String)

/-- esam.py:456-466 `modify_predicate_signature` on a set. The only exception is `KeyError`, so the order of the set does not matter. -/
def rewriteSet (d : List (String × String)) (S : Finset Lit) : Except Err (Finset Lit) :=
  if ∀ l ∈ S, (rewriteLit d l).toBool = true then
    .ok (S.image fun l => match rewriteLit d l with | .ok m => m | .error _ => l)
  else .error .keyError

/-- esam.py:236 `signature[parameter]`. -/
def proxyParam (sig : Sig) (x : String) : Except Err (String × PType) :=
  match sig.lookup x with
  | some t => .ok (x, t)
  | none => .error .keyError

/-- esam.py:231-236: the keys of the reversed dictionary in the order of their first insertion, each with the type it has in the signature of the action. -/
def proxySig (sig : Sig) (d : List (String × String)) : Except Err Sig :=
  ((Py.dictOf (d.map fun p => (p.2, p.1))).map Prod.fst).mapM (proxyParam sig)

/-- esam.py:221: the name of a proxy; the number 0 gives no suffix. -/
def proxyName (a : String) (n : Nat) : String := if n = 0 then a else a ++ "_" ++ toString n

/-- esam.py:199-242 `construct_proxy_action`; `m` is the action of that name in the domain. A new `Action` has no inequality preconditions. -/
def constructProxy (m : ActModel) (data : ProxyData) : Except Err ActModel := do
  let eff ← rewriteSet data.params data.eff
  let pre ← rewriteSet data.params (data.pre ∪ m.pre)
  let sig ← proxySig m.sig data.params
  .ok { sig := sig, pre := pre, eff := eff, ineq := ∅ }

/-- esam.py:341-367: the proxy data of a model `P` of the formula, `vars` being its variables in some order; `sig` is the signature of the action. -/
def proxyData (sig : Sig) (vars : List Lit) (P : Finset Lit) : ProxyData :=
  ⟨vars.toFinset \ P, P, minimizeParams (Sig.names sig) (vars.map fun l => (l, decide (l ∈ P)))⟩

/-- esam.py:254-265: one proxy is built and stored under its name: a new name is added at the end, the action of an existing name is replaced. -/
def storeProxy (a : String) (D : Domain) (p : ProxyData × Nat) : Except Err Domain := do
  let q ← constructProxy (D.act a) p.1
  let name := proxyName a p.2
  let names := if D.names.contains name then D.names else D.names ++ [name]
  .ok { D.setAct name q with names := names }

/-- esam.py:244-326 `handle_lifted_action_instances`: proxies are numbered from 1; at last the action itself is removed. -/
def storeProxies (a : String) (D : Domain) (ps : List ProxyData) : Except Err Domain := do
  let D ← (ps.zipIdx 1).foldlM (storeProxy a) D
  .ok { D with names := D.names.filter fun b => b ≠ a }

/-- esam.py:267-288 `decoder`, called after the loop: the closure reads the domain at the time of the call and the variables of the last proxy. Line 283 unpacks the
key, a text, into two characters; `index` looks for the first of them. -/
def decodeCall (D : Domain) (a : String) (proxyParams : List String) (d : List (String × String)) (objs : List String) :
    Except Err (String × List String) :=
  if a ∉ D.names then .error .keyError
  else
    let keys := (Py.dictOf (d.map fun p => (p.2, p.1))).map Prod.fst
    match keys.mapM fun k => match k.toList with
      | [new, old] => match proxyParams.findIdx? (· = String.ofList [new]) with
        | none => (.error .valueError : Except Err (String × String))
        | some i => match objs[i]? with
          | none => .error .indexError
          | some o => .ok (String.ofList [old], o)
      | _ => .error .valueError with
    | .error e => .error e
    | .ok m => do
      let objs ← (Sig.names (D.act a).sig).mapM fun p => match (Py.dictOf m).lookup p with
        | some o => .ok o
        | none => .error .keyError
      .ok (a, objs)

/-- esam.py:290-319 `encoder`, called after the loop, up to the first access to the domain: line 304 looks up the action that was removed. `params`: the number of keys of the
dictionary of the last proxy. The rest (`none`) is not modelled. -/
def encodeCall (D : Domain) (a : String) (params : Nat) (objs : List String) : Option (Except Err (String × List String)) :=
  if objs.toFinset.card ≠ params then some (.ok ("", []))
  else if a ∉ D.names then some (.error .keyError)
  else none

/-- esam.py:56-67 `encode`: every registered encoder in turn; only `NotSafeActionError` is caught. -/
def encodeAll (D : Domain) (a : String) (params : Nat) (objs : List String) : Nat → Option (Except Err (List (String × List String)))
  | 0 => some (.ok [])
  | n + 1 => match encodeCall D a params objs with
    | none => none
    | some (.error e) => some (.error e)
    | some (.ok r) => match encodeAll D a params objs n with
      | none => none
      | some (.error e) => some (.error e)
      | some (.ok rs) => some (.ok (r :: rs))

end Model
