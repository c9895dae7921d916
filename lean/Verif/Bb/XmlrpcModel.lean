/-!
# Commands over the network

Model of the server for XMLRPC, bitbake/lib/bb/server/xmlrpcserver.py, and of the choice of the command, bitbake/lib/bb/command.py,
`Command.runCommand`.  The effects of the commands are not modelled, only which are run.  Simplified: the configuration is always ready
(command.py:68-79), no command raises an exception, and the attributes that every class has are no commands.
-/

namespace Bb.Xmlrpc

/-- command.py:165-583: the synchronous commands with `readonly = True`. -/
def readonlySync : List String :=
  ["ping", "getAllKeysWithFlags", "getVariable", "getUIHandlerNum", "setEventMask", "setFeatures", "getLayerPriorities", "getRecipes",
   "getRecipeDepends", "getRecipeVersions", "getRecipeProvides", "getRecipePackages", "getRecipePackagesDynamic", "getRProviders",
   "getRuntimeDepends", "getRuntimeRecommends", "getRecipeInherits", "getBbFilePriority", "getDefaultPreference", "getSkippedRecipes",
   "getOverlayedRecipes", "getFileAppends", "getAllAppends", "findProviders", "findBestProvider", "allProviders", "getRuntimeProviders",
   "parseRecipeFile"]

/-- command.py:173-545: the other synchronous commands. -/
def otherSync : List String :=
  ["stateShutdown", "stateForceShutdown", "setVariable", "getSetVariable", "setConfig", "enableDataTracking", "disableDataTracking",
   "setPrePostConfFiles", "matchFile", "updateConfig", "parseConfiguration", "revalidateCaches", "dataStoreConnectorCmd",
   "dataStoreConnectorVarHistCmd", "dataStoreConnectorVarHistCmdEmit", "dataStoreConnectorIncHistCmd", "dataStoreConnectorRelease"]

/-- command.py:585-790: the asynchronous commands. -/
def asyncs : List String :=
  ["buildFile", "buildTargets", "generateDepTreeEvent", "generateDotGraph", "generateTargetsTree", "findConfigFiles",
   "findFilesMatchingInDir", "testCookerCommandEvent", "findConfigFilePath", "showVersions", "showEnvironmentTarget", "showEnvironment",
   "parseFiles", "compareRevisions", "triggerEvent", "resetCooker", "clientComplete", "findSigInfo", "getTaskSignatures"]

structure State where
  /-- `connection_token`, `haveui`, `quit` of the server -/
  token : Option Nat := none
  haveui : Bool := false
  quit : Bool := false
  /-- the asynchronous command that is run -/
  async : Option String := none
  /-- the synchronous commands that were run -/
  ran : List String := []
deriving DecidableEq

inductive Reply where
  | result
  | notReadonly
  | noSuch
  | busy
  | started
  | token (t : Option Nat)
  | none
deriving DecidableEq

/-- command.py:64-107, `runCommand` -/
def runCommand (ro : Bool) (name : String) (s : State) : Reply × State :=
  if name ∈ readonlySync ∨ name ∈ otherSync then
    if ro = true ∧ name ∉ readonlySync then (.notReadonly, s) else (.result, { s with ran := s.ran ++ [name] })
  else if name ∉ asyncs then (.noSuch, s)
  else if s.async ≠ Option.none then (.busy, s)
  else (.started, { s with async := some name })

/-- The token that comes with a request: that of an observer, one that was given, or nothing. -/
inductive Token where
  | observer
  | given (t : Nat)
  | missing
deriving DecidableEq

inductive Req where
  | runCommand (name : String)
  | addClient (t : Nat)
  | removeClient
  | terminateServer
deriving DecidableEq

/-- xmlrpcserver.py:134-140, `addClient`.  The token is made of the time. -/
def addClient (t : Nat) (s : State) : Reply × State :=
  if s.haveui then (.token Option.none, s) else (.token (some t), { s with token := some t, haveui := true })

/-- xmlrpcserver.py:142-145, `removeClient` -/
def removeClient (s : State) : Reply × State :=
  if s.haveui then (.none, { s with token := Option.none, haveui := false }) else (.none, s)

/-- xmlrpcserver.py:34: the check of the token, which begins with `0 and`. -/
def refused (tok : Token) (s : State) : Bool := false && decide (tok ≠ .observer) && decide (tok ≠ (s.token.elim .missing .given))

/-- xmlrpcserver.py:29-41, `do_POST`: a request is answered, or refused with 503. -/
def post (tok : Token) (r : Req) (s : State) : Option Reply × State :=
  if refused tok s then (Option.none, s)
  else
    let ro := decide (tok = .observer)
    match r with
    | .runCommand name => ((runCommand ro name s).1, (runCommand ro name s).2)
    | .addClient t => ((addClient t s).1, (addClient t s).2)
    | .removeClient => ((removeClient s).1, (removeClient s).2)
    | .terminateServer => (some .none, { s with quit := true })

end Bb.Xmlrpc
