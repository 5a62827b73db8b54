import Verif.Model.Rep

/-!
# Training trials

`hnn_trial.__call__` and `ode_trial.__call__` (experiments/trainer/hamiltonian_dynamics.py:431-490; the two differ only in
the function that computes a rollout, a parameter here).  Exceptions that are not subclasses of `Exception`
(`KeyboardInterrupt`) are not modelled.  `oil`'s `flatten_dict` and the logger are part of `addScalars`.
-/
namespace Verif

/-- Values in a configuration; `obj` stands for any object (networks, groups, numbers, data frames). -/
inductive CVal
  | obj (id : ℕ)
  | str (s : String)
  | bool (b : Bool)
  | dict (d : List (String × CVal))

/-- A configuration dictionary, in insertion order. -/
abbrev Cfg := List (String × CVal)

namespace Cfg

/-- `d.get(k)`. -/
def get? (d : Cfg) (k : String) : Option CVal := (d.find? fun e => e.1 == k).map (·.2)

/-- `d[k]`. -/
def item (d : Cfg) (k : String) : Py CVal :=
  match d.get? k with
  | some v => .ok v
  | none => .error .key

/-- The dictionary after `d.pop(k,…)`. -/
def pop (d : Cfg) (k : String) : Cfg := d.filter fun e => !(e.1 == k)

/-- `d[k]=v`: in place if the key exists, otherwise at the end. -/
def set (d : Cfg) (k : String) (v : CVal) : Cfg :=
  if d.any fun e => e.1 == k then d.map fun e => if e.1 == k then (k, v) else e else d ++ [(k, v)]

end Cfg

/-- `bool(v)` of a configuration value. -/
def CVal.truthy : CVal → Bool
  | .bool b => b
  | .str s => s != ""
  | .dict d => !d.isEmpty
  | .obj _ => true

/-- `os.path.join(a,b)` for a relative path `b`. -/
def osJoin (a b : String) : String := if a = "" ∨ a.toList.getLast? = some '/' then a ++ b else a ++ "/" ++ b

/-- `f"{i}"` for `i=None` or an integer. -/
def fmtTrial : Option ℕ → String
  | none => "None"
  | some i => toString i

/-- `cfg.setdefault('trainer_config',{}).get('log_suffix','')` and the assignment of the new suffix,
hamiltonian_dynamics.py:441-443 (472-474). -/
def withSuffix (cfg : Cfg) (i : ℕ) : Py Cfg :=
  match cfg.get? "trainer_config" with
  | none => .ok (cfg.set "trainer_config" (.dict [("log_suffix", .str (osJoin "" s!"trial{i}/"))]))
  | some (.dict d) =>
    match Cfg.get? d "log_suffix" with
    | none => .ok (cfg.set "trainer_config" (.dict (Cfg.set d "log_suffix" (.str (osJoin "" s!"trial{i}/")))))
    | some (.str s) => .ok (cfg.set "trainer_config" (.dict (Cfg.set d "log_suffix" (.str (osJoin s s!"trial{i}/")))))
    | some _ => .error .type
  | some _ => .error .attribute

/-- What a trial uses: `T` trainers, `B` minibatches, `Z` a pair of predicted and true trajectory. -/
structure TrialEnv (T B Z : Type) where
  /-- `self.make_trainer(**cfg)`, and the configuration afterwards: nested dictionaries are shared with the callee
  (experiments/hnn.py:34 assigns `net_config['group']`). -/
  makeTrainer : Cfg → Py T × Cfg
  /-- `trainer.logger.add_scalars('config',flatten_dict(cfg))`. -/
  addScalars : T → Cfg → Py Unit
  /-- `trainer.train(num_epochs)`. -/
  train : T → CVal → Py Unit
  /-- `trainer.ckpt['outcome']`. -/
  outcome : T → Py CVal
  /-- `trainer.dataloaders['test']`. -/
  tests : T → Py (List B)
  /-- `pred_and_gt(ds,trainer.model,mb)`. -/
  rollout : T → B → Py (List Z)
  /-- `f"{v}"`. -/
  fmt : CVal → String

/-- The file name, hamiltonian_dynamics.py:453 (484). -/
def trialFile (net group : String) (i : Option ℕ) : String := s!"./{net}_{group}_{fmtTrial i}.t"

/-- What a call of a trial leaves behind: the configuration (the caller's dictionary is changed in place), the files
written, and what it returns: the configuration with the outcome or the exception, or it raises. -/
structure TrialRes (Z : Type) where
  cfg : Cfg
  files : List (String × List Z)
  out : Py (CVal ⊕ PyErr)

variable {T B Z : Type}

/-- `if b: raise e`. -/
def raiseIf (b : Bool) (e : PyErr) : Py Unit := if b then .error e else .ok ()

/-- The part of the `try` block after `make_trainer`, hamiltonian_dynamics.py:445-453 (476-484).  A `Trainer` has no method
`save_checkpoint` (trainer.py:132 is commented out); `np.concatenate([])` raises `ValueError`. -/
def TrialEnv.rest (E : TrialEnv T B Z) (t : T) (cfg : Cfg) (save : Bool) (i : Option ℕ) : Py (CVal × (String × List Z)) := do
  E.addScalars t cfg
  let n ← Cfg.item cfg "num_epochs"
  E.train t n
  raiseIf save .attribute
  let o ← E.outcome t
  let bs ← E.tests t
  let trajectories ← bs.mapM (E.rollout t)
  raiseIf trajectories.isEmpty .value
  let net ← Cfg.item cfg "network"
  match ← Cfg.item cfg "net_config" with
  | .dict d =>
    let g ← Cfg.item d "group"
    return (o, (trialFile (E.fmt net) (E.fmt g) i, trajectories.flatten))
  | _ => throw .type

/-- `hnn_trial.__call__`, hamiltonian_dynamics.py:437-459; `ode_trial.__call__`, 468-490.  `del trainer` (458, 489) raises
`UnboundLocalError` if `make_trainer` has not returned. -/
def TrialEnv.call (E : TrialEnv T B Z) (strict : Bool) (cfg : Cfg) (i : Option ℕ) : TrialRes Z :=
  let cfg := (cfg.pop "local_rank").pop "resume"
  let save := match cfg.get? "save" with | some v => v.truthy | none => false
  let cfg := cfg.pop "save"
  match (match i with | none => Except.ok cfg | some i => withSuffix cfg i) with
  | .error e => ⟨cfg, [], .error (if strict then e else .unbound)⟩
  | .ok cfg =>
    match E.makeTrainer cfg with
    | (.error e, cfg) => ⟨cfg, [], .error (if strict then e else .unbound)⟩
    | (.ok t, cfg) =>
      match E.rest t cfg save i with
      | .error e => ⟨cfg, [], if strict then .error e else .ok (.inr e)⟩
      | .ok (o, f) => ⟨cfg, [f], .ok (.inl o)⟩

end Verif
