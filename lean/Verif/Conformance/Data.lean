import Verif.Conformance.Replay
/-
Generated by tools/gen_conformance.py from /repo/tests: the fixture suite as Lean data.
-/
set_option autoImplicit false

namespace Qlc.Conformance

/-- tests/fixtures/schema_generation/schema.graphql as introspection data. -/
def schemaJson : JSchema := ⟨[
  ⟨"OBJECT", "Query", none, none,
    none,
    some [⟨"operator", none, (.mk "OBJECT" (some "User") none), some false⟩,
      ⟨"host", none, (.mk "OBJECT" (some "Host") none), some false⟩,
      ⟨"network", none, (.mk "OBJECT" (some "Network") none), some false⟩,
      ⟨"node", none, (.mk "INTERFACE" (some "Node") none), some false⟩], none⟩,
  ⟨"OBJECT", "Mutation", none, none,
    none,
    some [⟨"decommissionHost", none, (.mk "NON_NULL" none (some (.mk "SCALAR" (some "Boolean") none))), some false⟩,
      ⟨"provisionHost", (some "Null return means it failed"), (.mk "OBJECT" (some "ProvisionHostPayload") none), some false⟩,
      ⟨"attachHostToNetworks", none, (.mk "NON_NULL" none (some (.mk "OBJECT" (some "AttachHostToNetworksPayload") none))), some false⟩], none⟩,
  ⟨"SCALAR", "ISO8601", none, none,
    none,
    none, none⟩,
  ⟨"SCALAR", "JSON", none, none,
    none,
    none, none⟩,
  ⟨"INTERFACE", "Node", (some "Lookup-able thing"), some ["User", "Host", "Network"],
    none,
    some [⟨"id", none, (.mk "NON_NULL" none (some (.mk "SCALAR" (some "ID") none))), some false⟩], none⟩,
  ⟨"OBJECT", "User", none, none,
    none,
    some [⟨"id", none, (.mk "NON_NULL" none (some (.mk "SCALAR" (some "ID") none))), some false⟩,
      ⟨"email", none, (.mk "NON_NULL" none (some (.mk "SCALAR" (some "String") none))), some false⟩,
      ⟨"firstName", none, (.mk "NON_NULL" none (some (.mk "SCALAR" (some "String") none))), some false⟩,
      ⟨"lastName", none, (.mk "NON_NULL" none (some (.mk "SCALAR" (some "String") none))), some false⟩,
      ⟨"publicRSAKey", none, (.mk "NON_NULL" none (some (.mk "SCALAR" (some "String") none))), some true⟩,
      ⟨"publicKey", none, (.mk "OBJECT" (some "PublicKey") none), some false⟩,
      ⟨"manager", (some "A user's manager, if they have one"), (.mk "OBJECT" (some "User") none), some false⟩,
      ⟨"personalHost", (some "A user's personal device"), (.mk "NON_NULL" none (some (.mk "OBJECT" (some "Host") none))), some false⟩,
      ⟨"lastLogin", (some "User's last time logging in"), (.mk "SCALAR" (some "ISO8601") none), some true⟩,
      ⟨"activity", (some "User's activity timestamps"), (.mk "NON_NULL" none (some (.mk "OBJECT" (some "UserActivity") none))), some false⟩,
      ⟨"tags", none, (.mk "NON_NULL" none (some (.mk "LIST" none (some (.mk "NON_NULL" none (some (.mk "UNION" (some "ResourceTag") none))))))), some false⟩], none⟩,
  ⟨"OBJECT", "PublicKey", none, none,
    none,
    some [⟨"kind", none, (.mk "NON_NULL" none (some (.mk "ENUM" (some "CryptoSigningAlgorithim") none))), some false⟩,
      ⟨"bitSize", none, (.mk "NON_NULL" none (some (.mk "SCALAR" (some "Int") none))), some false⟩,
      ⟨"value", none, (.mk "NON_NULL" none (some (.mk "SCALAR" (some "String") none))), some false⟩], none⟩,
  ⟨"OBJECT", "UserActivity", none, none,
    none,
    some [⟨"login", (some "User's last time successfully authenticating"), (.mk "SCALAR" (some "ISO8601") none), some false⟩,
      ⟨"logout", none, (.mk "SCALAR" (some "ISO8601") none), some false⟩,
      ⟨"read", none, (.mk "SCALAR" (some "ISO8601") none), some false⟩,
      ⟨"write", none, (.mk "SCALAR" (some "ISO8601") none), some false⟩], none⟩,
  ⟨"ENUM", "CryptoSigningAlgorithim", none, none,
    none,
    none, some ["RSA", "DSA", "ECDSA", "ED25519"]⟩,
  ⟨"OBJECT", "Host", none, none,
    none,
    some [⟨"id", none, (.mk "NON_NULL" none (some (.mk "SCALAR" (some "ID") none))), some false⟩,
      ⟨"operatingSystem", none, (.mk "NON_NULL" none (some (.mk "ENUM" (some "OperatingSystem") none))), some false⟩,
      ⟨"numCpus", none, (.mk "NON_NULL" none (some (.mk "SCALAR" (some "Int") none))), some false⟩,
      ⟨"networks", none, (.mk "NON_NULL" none (some (.mk "LIST" none (some (.mk "NON_NULL" none (some (.mk "OBJECT" (some "Network") none))))))), some false⟩,
      ⟨"tags", none, (.mk "NON_NULL" none (some (.mk "LIST" none (some (.mk "NON_NULL" none (some (.mk "UNION" (some "ResourceTag") none))))))), some false⟩], none⟩,
  ⟨"OBJECT", "HostConnection", none, none,
    none,
    some [⟨"totalCount", none, (.mk "NON_NULL" none (some (.mk "SCALAR" (some "Int") none))), some false⟩,
      ⟨"edges", none, (.mk "NON_NULL" none (some (.mk "LIST" none (some (.mk "NON_NULL" none (some (.mk "OBJECT" (some "HostEdge") none))))))), some false⟩], none⟩,
  ⟨"OBJECT", "HostEdge", none, none,
    none,
    some [⟨"node", none, (.mk "NON_NULL" none (some (.mk "OBJECT" (some "Host") none))), some false⟩], none⟩,
  ⟨"OBJECT", "Network", none, none,
    none,
    some [⟨"id", none, (.mk "NON_NULL" none (some (.mk "SCALAR" (some "ID") none))), some false⟩,
      ⟨"cidr", none, (.mk "NON_NULL" none (some (.mk "SCALAR" (some "String") none))), some false⟩,
      ⟨"ipv6Cidr", none, (.mk "SCALAR" (some "String") none), some false⟩,
      ⟨"hosts", none, (.mk "NON_NULL" none (some (.mk "OBJECT" (some "HostConnection") none))), some false⟩,
      ⟨"tags", none, (.mk "NON_NULL" none (some (.mk "LIST" none (some (.mk "NON_NULL" none (some (.mk "UNION" (some "ResourceTag") none))))))), some false⟩,
      ⟨"hostIdTopology", none, (.mk "LIST" none (some (.mk "LIST" none (some (.mk "LIST" none (some (.mk "SCALAR" (some "ID") none))))))), some false⟩,
      ⟨"hostIdGroups", none, (.mk "NON_NULL" none (some (.mk "LIST" none (some (.mk "NON_NULL" none (some (.mk "LIST" none (some (.mk "NON_NULL" none (some (.mk "SCALAR" (some "ID") none))))))))))), some false⟩], none⟩,
  ⟨"ENUM", "OperatingSystem", (some "An OS makes hardware useful"), none,
    none,
    none, some ["ARCH_LINUX", "UBUNTU_LINUX", "FREEBSD"]⟩,
  ⟨"INPUT_OBJECT", "ProvisionHostInput", none, none,
    some [⟨"os", none, (.mk "NON_NULL" none (some (.mk "ENUM" (some "OperatingSystem") none))), none⟩],
    none, none⟩,
  ⟨"OBJECT", "ProvisionHostPayload", none, none,
    none,
    some [⟨"host", none, (.mk "NON_NULL" none (some (.mk "OBJECT" (some "Host") none))), some false⟩], none⟩,
  ⟨"INPUT_OBJECT", "AttachHostToNetworksInput", none, none,
    some [⟨"hostId", (some "ID of host to attach"), (.mk "NON_NULL" none (some (.mk "SCALAR" (some "ID") none))), none⟩,
      ⟨"networkIds", (some "IDs of networks to attach to"), (.mk "NON_NULL" none (some (.mk "LIST" none (some (.mk "NON_NULL" none (some (.mk "SCALAR" (some "ID") none))))))), none⟩],
    none, none⟩,
  ⟨"OBJECT", "AttachHostToNetworksPayload", none, none,
    none,
    some [⟨"host", none, (.mk "NON_NULL" none (some (.mk "OBJECT" (some "Host") none))), some false⟩], none⟩,
  ⟨"INTERFACE", "Tag", none, some ["KeyValueTag", "BooleanTag", "JSONTag"],
    none,
    some [⟨"author", none, (.mk "NON_NULL" none (some (.mk "OBJECT" (some "User") none))), some false⟩,
      ⟨"timeToLiveMs", none, (.mk "NON_NULL" none (some (.mk "SCALAR" (some "Int") none))), some false⟩,
      ⟨"queryable", none, (.mk "NON_NULL" none (some (.mk "SCALAR" (some "Boolean") none))), some false⟩], none⟩,
  ⟨"INTERFACE", "Tagged", none, some ["User", "Host", "Network"],
    none,
    some [⟨"tags", none, (.mk "NON_NULL" none (some (.mk "LIST" none (some (.mk "NON_NULL" none (some (.mk "UNION" (some "ResourceTag") none))))))), some false⟩], none⟩,
  ⟨"UNION", "ResourceTag", none, some ["KeyValueTag", "BooleanTag", "JSONTag"],
    none,
    none, none⟩,
  ⟨"OBJECT", "KeyValueTag", none, none,
    none,
    some [⟨"author", none, (.mk "NON_NULL" none (some (.mk "OBJECT" (some "User") none))), some false⟩,
      ⟨"timeToLiveMs", none, (.mk "NON_NULL" none (some (.mk "SCALAR" (some "Int") none))), some false⟩,
      ⟨"queryable", none, (.mk "NON_NULL" none (some (.mk "SCALAR" (some "Boolean") none))), some false⟩,
      ⟨"key", none, (.mk "NON_NULL" none (some (.mk "SCALAR" (some "String") none))), some false⟩,
      ⟨"value", none, (.mk "NON_NULL" none (some (.mk "SCALAR" (some "String") none))), some false⟩], none⟩,
  ⟨"OBJECT", "BooleanTag", none, none,
    none,
    some [⟨"author", none, (.mk "NON_NULL" none (some (.mk "OBJECT" (some "User") none))), some false⟩,
      ⟨"timeToLiveMs", none, (.mk "NON_NULL" none (some (.mk "SCALAR" (some "Int") none))), some false⟩,
      ⟨"queryable", none, (.mk "NON_NULL" none (some (.mk "SCALAR" (some "Boolean") none))), some false⟩,
      ⟨"name", none, (.mk "NON_NULL" none (some (.mk "SCALAR" (some "String") none))), some false⟩,
      ⟨"not", (some "If true, this boolean tag has inverted meaning"), (.mk "NON_NULL" none (some (.mk "SCALAR" (some "Boolean") none))), some false⟩], none⟩,
  ⟨"OBJECT", "JSONTag", none, none,
    none,
    some [⟨"author", none, (.mk "NON_NULL" none (some (.mk "OBJECT" (some "User") none))), some false⟩,
      ⟨"timeToLiveMs", none, (.mk "NON_NULL" none (some (.mk "SCALAR" (some "Int") none))), some false⟩,
      ⟨"queryable", none, (.mk "NON_NULL" none (some (.mk "SCALAR" (some "Boolean") none))), some false⟩,
      ⟨"content", none, (.mk "NON_NULL" none (some (.mk "SCALAR" (some "JSON") none))), some false⟩], none⟩,
  ⟨"SCALAR", "ID", none, none,
    none,
    none, none⟩,
  ⟨"SCALAR", "Boolean", none, none,
    none,
    none, none⟩,
  ⟨"SCALAR", "String", none, none,
    none,
    none, none⟩,
  ⟨"SCALAR", "Int", none, none,
    none,
    none, none⟩,
  ⟨"SCALAR", "Float", none, none,
    none,
    none, none⟩]⟩

/-- tests/fixtures/typescript/compile_simple_query. -/
def compile_simple_query : Fixture where
  args := { rootDir := some (.ofString "/tmp/qlc"), numThreads := some 2, noColor := true }
  files := [
    ("/tmp/qlc/simple_query.graphql", "query SimpleQuery {\n  me: operator {\n    id\n    firstName\n    last: lastName\n  }\n}\n")]
  docs := [
    ("query SimpleQuery {\n  me: operator {\n    id\n    firstName\n    last: lastName\n  }\n}\n", .ok [.operation .query ⟨1, 1⟩ (some "SimpleQuery") [] [] [.field ⟨2, 3⟩ (some "me") "operator" [] [] [.field ⟨3, 5⟩ none "id" [] [] [], .field ⟨4, 5⟩ none "firstName" [] [] [], .field ⟨5, 5⟩ (some "last") "lastName" [] [] []]]])]
  tree := .dir (.ofString "/tmp/qlc") [.file (.ofString "/tmp/qlc/simple_query.graphql")]
  expected := [
    ("/tmp/qlc/simple_query.graphql.d.ts", "/* eslint-disable */\n// This file was automatically generated and should not be edited.\n\nimport type { QueryDocumentNode } from \"@notarize/qlc-cli/typed-documentnode\";\n\nexport type SimpleQuery_me = {\n  readonly firstName: string;\n  readonly id: string;\n  readonly last: string;\n};\n\nexport type SimpleQuery = {\n  readonly me: SimpleQuery_me | null;\n};\n\ndeclare const graphqlDocument: QueryDocumentNode<SimpleQuery, never>;\nexport default graphqlDocument;")]
  code := 0
  output := []

/-- tests/fixtures/typescript/compile_simple_subscription. -/
def compile_simple_subscription : Fixture where
  args := { rootDir := some (.ofString "/tmp/qlc"), numThreads := some 2, noColor := true }
  files := [
    ("/tmp/qlc/simple_subscription.graphql", "subscription SimpleSubscription {\n  me: operator {\n    id\n    firstName\n    last: lastName\n  }\n}\n")]
  docs := [
    ("subscription SimpleSubscription {\n  me: operator {\n    id\n    firstName\n    last: lastName\n  }\n}\n", .ok [.operation .subscription ⟨1, 1⟩ (some "SimpleSubscription") [] [] [.field ⟨2, 3⟩ (some "me") "operator" [] [] [.field ⟨3, 5⟩ none "id" [] [] [], .field ⟨4, 5⟩ none "firstName" [] [] [], .field ⟨5, 5⟩ (some "last") "lastName" [] [] []]]])]
  tree := .dir (.ofString "/tmp/qlc") [.file (.ofString "/tmp/qlc/simple_subscription.graphql")]
  expected := [
    ("/tmp/qlc/simple_subscription.graphql.d.ts", "/* eslint-disable */\n// This file was automatically generated and should not be edited.\n\nimport type { QueryDocumentNode } from \"@notarize/qlc-cli/typed-documentnode\";\n\nexport type SimpleSubscription_me = {\n  readonly firstName: string;\n  readonly id: string;\n  readonly last: string;\n};\n\nexport type SimpleSubscription = {\n  readonly me: SimpleSubscription_me | null;\n};\n\ndeclare const graphqlDocument: QueryDocumentNode<SimpleSubscription, never>;\nexport default graphqlDocument;")]
  code := 0
  output := []

/-- tests/fixtures/typescript/compile_simple_mutation. -/
def compile_simple_mutation : Fixture where
  args := { rootDir := some (.ofString "/tmp/qlc"), numThreads := some 2, noColor := true }
  files := [
    ("/tmp/qlc/simple_mutation.graphql", "mutation SimpleMutation {\n  decommissionHost(id: \"hardcoded\")\n}\n")]
  docs := [
    ("mutation SimpleMutation {\n  decommissionHost(id: \"hardcoded\")\n}\n", .ok [.operation .mutation ⟨1, 1⟩ (some "SimpleMutation") [] [] [.field ⟨2, 3⟩ none "decommissionHost" [("id", (.other "\"hardcoded\""))] [] []]])]
  tree := .dir (.ofString "/tmp/qlc") [.file (.ofString "/tmp/qlc/simple_mutation.graphql")]
  expected := [
    ("/tmp/qlc/simple_mutation.graphql.d.ts", "/* eslint-disable */\n// This file was automatically generated and should not be edited.\n\nimport type { MutationDocumentNode } from \"@notarize/qlc-cli/typed-documentnode\";\n\nexport type SimpleMutation = {\n  readonly decommissionHost: boolean;\n};\n\ndeclare const graphqlDocument: MutationDocumentNode<SimpleMutation, never>;\nexport default graphqlDocument;")]
  code := 0
  output := []

/-- tests/fixtures/typescript/compile_simple_fragment. -/
def compile_simple_fragment : Fixture where
  args := { rootDir := some (.ofString "/tmp/qlc"), numThreads := some 2, noColor := true }
  files := [
    ("/tmp/qlc/simple_fragment.graphql", "fragment SimpleFragment on User {\n  id\n  email\n  manager {\n    id\n    firstName\n  }\n}\n")]
  docs := [
    ("fragment SimpleFragment on User {\n  id\n  email\n  manager {\n    id\n    firstName\n  }\n}\n", .ok [.fragment ⟨⟨1, 1⟩, "SimpleFragment", "User", [], [.field ⟨2, 3⟩ none "id" [] [] [], .field ⟨3, 3⟩ none "email" [] [] [], .field ⟨4, 3⟩ none "manager" [] [] [.field ⟨5, 5⟩ none "id" [] [] [], .field ⟨6, 5⟩ none "firstName" [] [] []]]⟩])]
  tree := .dir (.ofString "/tmp/qlc") [.file (.ofString "/tmp/qlc/simple_fragment.graphql")]
  expected := [
    ("/tmp/qlc/simple_fragment.graphql.d.ts", "/* eslint-disable */\n// This file was automatically generated and should not be edited.\n\nimport type { FragmentDocumentNode } from \"@notarize/qlc-cli/typed-documentnode\";\n\nexport type SimpleFragment_manager = {\n  readonly firstName: string;\n  readonly id: string;\n};\n\nexport type SimpleFragment = {\n  readonly email: string;\n  readonly id: string;\n  /**\n   * A user's manager, if they have one\n   */\n  readonly manager: SimpleFragment_manager | null;\n};\n\ndeclare const graphqlDocument: FragmentDocumentNode<SimpleFragment>;\nexport default graphqlDocument;")]
  code := 0
  output := []

/-- tests/fixtures/typescript/compile_typename. -/
def compile_typename : Fixture where
  args := { rootDir := some (.ofString "/tmp/qlc"), numThreads := some 2, noColor := true }
  files := [
    ("/tmp/qlc/with_some_typename_query.graphql", "query WithSomeDunderDunderTypename {\n  operator {\n    as: __typename\n    personalHost {\n      __typename\n      id\n    }\n  }\n}\n")]
  docs := [
    ("query WithSomeDunderDunderTypename {\n  operator {\n    as: __typename\n    personalHost {\n      __typename\n      id\n    }\n  }\n}\n", .ok [.operation .query ⟨1, 1⟩ (some "WithSomeDunderDunderTypename") [] [] [.field ⟨2, 3⟩ none "operator" [] [] [.field ⟨3, 5⟩ (some "as") "__typename" [] [] [], .field ⟨4, 5⟩ none "personalHost" [] [] [.field ⟨5, 7⟩ none "__typename" [] [] [], .field ⟨6, 7⟩ none "id" [] [] []]]]])]
  tree := .dir (.ofString "/tmp/qlc") [.file (.ofString "/tmp/qlc/with_some_typename_query.graphql")]
  expected := [
    ("/tmp/qlc/with_some_typename_query.graphql.d.ts", "/* eslint-disable */\n// This file was automatically generated and should not be edited.\n\nimport type { QueryDocumentNode } from \"@notarize/qlc-cli/typed-documentnode\";\n\nexport type WithSomeDunderDunderTypename_operator_personalHost = {\n  readonly __typename: \"Host\";\n  readonly id: string;\n};\n\nexport type WithSomeDunderDunderTypename_operator = {\n  readonly as: \"User\";\n  /**\n   * A user's personal device\n   */\n  readonly personalHost: WithSomeDunderDunderTypename_operator_personalHost;\n};\n\nexport type WithSomeDunderDunderTypename = {\n  readonly operator: WithSomeDunderDunderTypename_operator | null;\n};\n\ndeclare const graphqlDocument: QueryDocumentNode<WithSomeDunderDunderTypename, never>;\nexport default graphqlDocument;")]
  code := 0
  output := []

/-- tests/fixtures/typescript/compile_with_all_module_config. -/
def compile_with_all_module_config : Fixture where
  args := { rootDir := some (.ofString "/tmp/qlc"), numThreads := some 2, noColor := true, globalTypesModuleName := some "@web/graphql_globals", rootDirImportPrefix := some "@web/", typedGraphqlDocumentnodeModuleName := some "@web/typed_node" }
  files := [
    ("/tmp/qlc/root_fragment.graphql", "fragment RootCheck on Host {\n  id\n  numCpus\n}\n"),
    ("/tmp/qlc/using_module_config_query.graphql", "#import \"./lower/low_fragment.graphql\"\n#import \"@web/root_fragment.graphql\"\n\nquery UsingModuleConfig {\n  operator {\n    id\n    personalHost {\n      id\n      ...RootCheck\n    }\n    ...LowerCheck\n  }\n}\n"),
    ("/tmp/qlc/lower/low_fragment.graphql", "fragment LowerCheck on User {\n  id\n  personalHost {\n    operatingSystem\n  }\n}\n")]
  docs := [
    ("fragment RootCheck on Host {\n  id\n  numCpus\n}\n", .ok [.fragment ⟨⟨1, 1⟩, "RootCheck", "Host", [], [.field ⟨2, 3⟩ none "id" [] [] [], .field ⟨3, 3⟩ none "numCpus" [] [] []]⟩]),
    ("#import \"./lower/low_fragment.graphql\"\n#import \"@web/root_fragment.graphql\"\n\nquery UsingModuleConfig {\n  operator {\n    id\n    personalHost {\n      id\n      ...RootCheck\n    }\n    ...LowerCheck\n  }\n}\n", .ok [.operation .query ⟨4, 1⟩ (some "UsingModuleConfig") [] [] [.field ⟨5, 3⟩ none "operator" [] [] [.field ⟨6, 5⟩ none "id" [] [] [], .field ⟨7, 5⟩ none "personalHost" [] [] [.field ⟨8, 7⟩ none "id" [] [] [], .spread ⟨9, 10⟩ "RootCheck" []], .spread ⟨11, 8⟩ "LowerCheck" []]]]),
    ("fragment LowerCheck on User {\n  id\n  personalHost {\n    operatingSystem\n  }\n}\n", .ok [.fragment ⟨⟨1, 1⟩, "LowerCheck", "User", [], [.field ⟨2, 3⟩ none "id" [] [] [], .field ⟨3, 3⟩ none "personalHost" [] [] [.field ⟨4, 5⟩ none "operatingSystem" [] [] []]]⟩])]
  tree := .dir (.ofString "/tmp/qlc") [.dir (.ofString "/tmp/qlc/lower") [.file (.ofString "/tmp/qlc/lower/low_fragment.graphql")], .file (.ofString "/tmp/qlc/root_fragment.graphql"), .file (.ofString "/tmp/qlc/using_module_config_query.graphql")]
  expected := [
    ("/tmp/qlc/graphql_globals.ts", "/* eslint-disable */\n// This file was automatically generated and should not be edited.\n\n/**\n * An OS makes hardware useful\n */\nexport enum OperatingSystem {\n  ARCH_LINUX = \"ARCH_LINUX\",\n  FREEBSD = \"FREEBSD\",\n  UBUNTU_LINUX = \"UBUNTU_LINUX\",\n}"),
    ("/tmp/qlc/root_fragment.graphql.d.ts", "/* eslint-disable */\n// This file was automatically generated and should not be edited.\n\nimport type { FragmentDocumentNode } from \"@web/typed_node\";\n\nexport type RootCheck = {\n  readonly id: string;\n  readonly numCpus: number;\n};\n\ndeclare const graphqlDocument: FragmentDocumentNode<RootCheck>;\nexport default graphqlDocument;"),
    ("/tmp/qlc/using_module_config_query.graphql.d.ts", "/* eslint-disable */\n// This file was automatically generated and should not be edited.\n\nimport type { QueryDocumentNode } from \"@web/typed_node\";\nimport type { OperatingSystem } from \"@web/graphql_globals\";\n\nexport type UsingModuleConfig_operator_personalHost = {\n  readonly id: string;\n  readonly numCpus: number;\n  readonly operatingSystem: OperatingSystem;\n};\n\nexport type UsingModuleConfig_operator = {\n  readonly id: string;\n  /**\n   * A user's personal device\n   */\n  readonly personalHost: UsingModuleConfig_operator_personalHost;\n};\n\nexport type UsingModuleConfig = {\n  readonly operator: UsingModuleConfig_operator | null;\n};\n\ndeclare const graphqlDocument: QueryDocumentNode<UsingModuleConfig, never>;\nexport default graphqlDocument;"),
    ("/tmp/qlc/lower/low_fragment.graphql.d.ts", "/* eslint-disable */\n// This file was automatically generated and should not be edited.\n\nimport type { FragmentDocumentNode } from \"@web/typed_node\";\nimport type { OperatingSystem } from \"@web/graphql_globals\";\n\nexport type LowerCheck_personalHost = {\n  readonly operatingSystem: OperatingSystem;\n};\n\nexport type LowerCheck = {\n  readonly id: string;\n  /**\n   * A user's personal device\n   */\n  readonly personalHost: LowerCheck_personalHost;\n};\n\ndeclare const graphqlDocument: FragmentDocumentNode<LowerCheck>;\nexport default graphqlDocument;")]
  code := 0
  output := []

/-- tests/fixtures/typescript/complex/compile_deep_fragments. -/
def complex_compile_deep_fragments : Fixture where
  args := { rootDir := some (.ofString "/tmp/qlc"), numThreads := some 2, noColor := true }
  files := [
    ("/tmp/qlc/deeply_fragmented_query.graphql", "#import \"./used_deep_fragment.graphql\"\n\nquery DeeplyFragmented {\n  operator {\n    id\n    firstName\n    ... on User {\n      id\n      id2: id\n      ... on User {\n        id3: id\n      }\n      ...UserDeep\n    }\n  }\n}\n"),
    ("/tmp/qlc/used_deep_fragment.graphql", "fragment UserDeep on User {\n  idDeep: id\n  lastName\n}\n")]
  docs := [
    ("#import \"./used_deep_fragment.graphql\"\n\nquery DeeplyFragmented {\n  operator {\n    id\n    firstName\n    ... on User {\n      id\n      id2: id\n      ... on User {\n        id3: id\n      }\n      ...UserDeep\n    }\n  }\n}\n", .ok [.operation .query ⟨3, 1⟩ (some "DeeplyFragmented") [] [] [.field ⟨4, 3⟩ none "operator" [] [] [.field ⟨5, 5⟩ none "id" [] [] [], .field ⟨6, 5⟩ none "firstName" [] [] [], .inline ⟨7, 9⟩ (some "User") [] [.field ⟨8, 7⟩ none "id" [] [] [], .field ⟨9, 7⟩ (some "id2") "id" [] [] [], .inline ⟨10, 11⟩ (some "User") [] [.field ⟨11, 9⟩ (some "id3") "id" [] [] []], .spread ⟨13, 10⟩ "UserDeep" []]]]]),
    ("fragment UserDeep on User {\n  idDeep: id\n  lastName\n}\n", .ok [.fragment ⟨⟨1, 1⟩, "UserDeep", "User", [], [.field ⟨2, 3⟩ (some "idDeep") "id" [] [] [], .field ⟨3, 3⟩ none "lastName" [] [] []]⟩])]
  tree := .dir (.ofString "/tmp/qlc") [.file (.ofString "/tmp/qlc/deeply_fragmented_query.graphql"), .file (.ofString "/tmp/qlc/used_deep_fragment.graphql")]
  expected := [
    ("/tmp/qlc/deeply_fragmented_query.graphql.d.ts", "/* eslint-disable */\n// This file was automatically generated and should not be edited.\n\nimport type { QueryDocumentNode } from \"@notarize/qlc-cli/typed-documentnode\";\n\nexport type DeeplyFragmented_operator = {\n  readonly firstName: string;\n  readonly id: string;\n  readonly id2: string;\n  readonly id3: string;\n  readonly idDeep: string;\n  readonly lastName: string;\n};\n\nexport type DeeplyFragmented = {\n  readonly operator: DeeplyFragmented_operator | null;\n};\n\ndeclare const graphqlDocument: QueryDocumentNode<DeeplyFragmented, never>;\nexport default graphqlDocument;"),
    ("/tmp/qlc/used_deep_fragment.graphql.d.ts", "/* eslint-disable */\n// This file was automatically generated and should not be edited.\n\nimport type { FragmentDocumentNode } from \"@notarize/qlc-cli/typed-documentnode\";\n\nexport type UserDeep = {\n  readonly idDeep: string;\n  readonly lastName: string;\n};\n\ndeclare const graphqlDocument: FragmentDocumentNode<UserDeep>;\nexport default graphqlDocument;")]
  code := 0
  output := []

/-- tests/fixtures/typescript/complex/compile_absolute_import_fragments. -/
def complex_compile_absolute_import_fragments : Fixture where
  args := { rootDir := some (.ofString "/tmp/qlc"), numThreads := some 2, noColor := true }
  files := [
    ("/tmp/qlc/root_query.graphql", "#import \"host/personal_host_fragment.graphql\"\n#import \"./user/user_fragment.graphql\"\n\nquery Root {\n  operator {\n    id\n    ...RelativeFragmentUser\n    personalHost {\n      id\n      ...AbsoluteFragmentHost\n    }\n  }\n}\n"),
    ("/tmp/qlc/user/sub_user_fragment.graphql", "fragment SubUser on User {\n  email\n}\n"),
    ("/tmp/qlc/user/user_fragment.graphql", "#import \"host/personal_host_fragment.graphql\"\n#import \"./sub_user_fragment.graphql\"\n\nfragment RelativeFragmentUser on User {\n  lastNameFromRelative: lastName\n  personalHost {\n    personalHostIdFromRelative: id\n    ...AbsoluteFragmentHost\n  }\n  ...SubUser\n}\n"),
    ("/tmp/qlc/host/personal_host_fragment.graphql", "fragment AbsoluteFragmentHost on Host {\n  osFromAbsolute: operatingSystem\n}\n")]
  docs := [
    ("#import \"host/personal_host_fragment.graphql\"\n#import \"./user/user_fragment.graphql\"\n\nquery Root {\n  operator {\n    id\n    ...RelativeFragmentUser\n    personalHost {\n      id\n      ...AbsoluteFragmentHost\n    }\n  }\n}\n", .ok [.operation .query ⟨4, 1⟩ (some "Root") [] [] [.field ⟨5, 3⟩ none "operator" [] [] [.field ⟨6, 5⟩ none "id" [] [] [], .spread ⟨7, 8⟩ "RelativeFragmentUser" [], .field ⟨8, 5⟩ none "personalHost" [] [] [.field ⟨9, 7⟩ none "id" [] [] [], .spread ⟨10, 10⟩ "AbsoluteFragmentHost" []]]]]),
    ("fragment SubUser on User {\n  email\n}\n", .ok [.fragment ⟨⟨1, 1⟩, "SubUser", "User", [], [.field ⟨2, 3⟩ none "email" [] [] []]⟩]),
    ("#import \"host/personal_host_fragment.graphql\"\n#import \"./sub_user_fragment.graphql\"\n\nfragment RelativeFragmentUser on User {\n  lastNameFromRelative: lastName\n  personalHost {\n    personalHostIdFromRelative: id\n    ...AbsoluteFragmentHost\n  }\n  ...SubUser\n}\n", .ok [.fragment ⟨⟨4, 1⟩, "RelativeFragmentUser", "User", [], [.field ⟨5, 3⟩ (some "lastNameFromRelative") "lastName" [] [] [], .field ⟨6, 3⟩ none "personalHost" [] [] [.field ⟨7, 5⟩ (some "personalHostIdFromRelative") "id" [] [] [], .spread ⟨8, 8⟩ "AbsoluteFragmentHost" []], .spread ⟨10, 6⟩ "SubUser" []]⟩]),
    ("fragment AbsoluteFragmentHost on Host {\n  osFromAbsolute: operatingSystem\n}\n", .ok [.fragment ⟨⟨1, 1⟩, "AbsoluteFragmentHost", "Host", [], [.field ⟨2, 3⟩ (some "osFromAbsolute") "operatingSystem" [] [] []]⟩])]
  tree := .dir (.ofString "/tmp/qlc") [.dir (.ofString "/tmp/qlc/host") [.file (.ofString "/tmp/qlc/host/personal_host_fragment.graphql")], .file (.ofString "/tmp/qlc/root_query.graphql"), .dir (.ofString "/tmp/qlc/user") [.file (.ofString "/tmp/qlc/user/sub_user_fragment.graphql"), .file (.ofString "/tmp/qlc/user/user_fragment.graphql")]]
  expected := [
    ("/tmp/qlc/graphql-globals.ts", "/* eslint-disable */\n// This file was automatically generated and should not be edited.\n\n/**\n * An OS makes hardware useful\n */\nexport enum OperatingSystem {\n  ARCH_LINUX = \"ARCH_LINUX\",\n  FREEBSD = \"FREEBSD\",\n  UBUNTU_LINUX = \"UBUNTU_LINUX\",\n}"),
    ("/tmp/qlc/root_query.graphql.d.ts", "/* eslint-disable */\n// This file was automatically generated and should not be edited.\n\nimport type { QueryDocumentNode } from \"@notarize/qlc-cli/typed-documentnode\";\nimport type { OperatingSystem } from \"graphql-globals\";\n\nexport type Root_operator_personalHost = {\n  readonly id: string;\n  readonly osFromAbsolute: OperatingSystem;\n  readonly personalHostIdFromRelative: string;\n};\n\nexport type Root_operator = {\n  readonly email: string;\n  readonly id: string;\n  readonly lastNameFromRelative: string;\n  /**\n   * A user's personal device\n   */\n  readonly personalHost: Root_operator_personalHost;\n};\n\nexport type Root = {\n  readonly operator: Root_operator | null;\n};\n\ndeclare const graphqlDocument: QueryDocumentNode<Root, never>;\nexport default graphqlDocument;"),
    ("/tmp/qlc/user/sub_user_fragment.graphql.d.ts", "/* eslint-disable */\n// This file was automatically generated and should not be edited.\n\nimport type { FragmentDocumentNode } from \"@notarize/qlc-cli/typed-documentnode\";\n\nexport type SubUser = {\n  readonly email: string;\n};\n\ndeclare const graphqlDocument: FragmentDocumentNode<SubUser>;\nexport default graphqlDocument;"),
    ("/tmp/qlc/user/user_fragment.graphql.d.ts", "/* eslint-disable */\n// This file was automatically generated and should not be edited.\n\nimport type { FragmentDocumentNode } from \"@notarize/qlc-cli/typed-documentnode\";\nimport type { OperatingSystem } from \"graphql-globals\";\n\nexport type RelativeFragmentUser_personalHost = {\n  readonly osFromAbsolute: OperatingSystem;\n  readonly personalHostIdFromRelative: string;\n};\n\nexport type RelativeFragmentUser = {\n  readonly email: string;\n  readonly lastNameFromRelative: string;\n  /**\n   * A user's personal device\n   */\n  readonly personalHost: RelativeFragmentUser_personalHost;\n};\n\ndeclare const graphqlDocument: FragmentDocumentNode<RelativeFragmentUser>;\nexport default graphqlDocument;"),
    ("/tmp/qlc/host/personal_host_fragment.graphql.d.ts", "/* eslint-disable */\n// This file was automatically generated and should not be edited.\n\nimport type { FragmentDocumentNode } from \"@notarize/qlc-cli/typed-documentnode\";\nimport type { OperatingSystem } from \"graphql-globals\";\n\nexport type AbsoluteFragmentHost = {\n  readonly osFromAbsolute: OperatingSystem;\n};\n\ndeclare const graphqlDocument: FragmentDocumentNode<AbsoluteFragmentHost>;\nexport default graphqlDocument;")]
  code := 0
  output := []

/-- tests/fixtures/typescript/complex/union/compile_union_with_abstract_and_concrete_types. -/
def complex_union_compile_union_with_abstract_and_concrete_types : Fixture where
  args := { rootDir := some (.ofString "/tmp/qlc"), numThreads := some 2, noColor := true }
  files := [
    ("/tmp/qlc/tagged_host_query.graphql", "query GetTagsForHost {\n  host(id: \"taggedHost\") {\n    id\n    tags {\n      __typename\n\n      ... on Tag {\n        timeToLiveMs\n      }\n\n      ... on BooleanTag {\n        name\n        not\n      }\n    }\n  }\n}\n")]
  docs := [
    ("query GetTagsForHost {\n  host(id: \"taggedHost\") {\n    id\n    tags {\n      __typename\n\n      ... on Tag {\n        timeToLiveMs\n      }\n\n      ... on BooleanTag {\n        name\n        not\n      }\n    }\n  }\n}\n", .ok [.operation .query ⟨1, 1⟩ (some "GetTagsForHost") [] [] [.field ⟨2, 3⟩ none "host" [("id", (.other "\"taggedHost\""))] [] [.field ⟨3, 5⟩ none "id" [] [] [], .field ⟨4, 5⟩ none "tags" [] [] [.field ⟨5, 7⟩ none "__typename" [] [] [], .inline ⟨7, 11⟩ (some "Tag") [] [.field ⟨8, 9⟩ none "timeToLiveMs" [] [] []], .inline ⟨11, 11⟩ (some "BooleanTag") [] [.field ⟨12, 9⟩ none "name" [] [] [], .field ⟨13, 9⟩ none "not" [] [] []]]]]])]
  tree := .dir (.ofString "/tmp/qlc") [.file (.ofString "/tmp/qlc/tagged_host_query.graphql")]
  expected := [
    ("/tmp/qlc/tagged_host_query.graphql.d.ts", "/* eslint-disable */\n// This file was automatically generated and should not be edited.\n\nimport type { QueryDocumentNode } from \"@notarize/qlc-cli/typed-documentnode\";\n\nexport type GetTagsForHost_host_tags_BooleanTag = {\n  readonly __typename: \"BooleanTag\";\n  readonly name: string;\n  /**\n   * If true, this boolean tag has inverted meaning\n   */\n  readonly not: boolean;\n  readonly timeToLiveMs: number;\n};\n\nexport type GetTagsForHost_host_tags_$$other = {\n  readonly __typename: \"JSONTag\" | \"KeyValueTag\";\n  readonly timeToLiveMs: number;\n};\n\nexport type GetTagsForHost_host_tags = GetTagsForHost_host_tags_BooleanTag | GetTagsForHost_host_tags_$$other;\n\nexport type GetTagsForHost_host = {\n  readonly id: string;\n  readonly tags: GetTagsForHost_host_tags[];\n};\n\nexport type GetTagsForHost = {\n  readonly host: GetTagsForHost_host | null;\n};\n\ndeclare const graphqlDocument: QueryDocumentNode<GetTagsForHost, never>;\nexport default graphqlDocument;")]
  code := 0
  output := []

/-- tests/fixtures/typescript/complex/union/compile_union_with_abstract_only. -/
def complex_union_compile_union_with_abstract_only : Fixture where
  args := { rootDir := some (.ofString "/tmp/qlc"), numThreads := some 2, noColor := true }
  files := [
    ("/tmp/qlc/tagged_network_query.graphql", "query GetTagsForNetwork {\n  network(id: \"taggedNetwork\") {\n    id\n    tags {\n      __typename\n      ... on Tag {\n        timeToLiveMs\n        author {\n          __typename\n          id\n          tags {\n            ... on Tag {\n              timeToLiveMs\n            }\n          }\n        }\n      }\n    }\n  }\n}\n")]
  docs := [
    ("query GetTagsForNetwork {\n  network(id: \"taggedNetwork\") {\n    id\n    tags {\n      __typename\n      ... on Tag {\n        timeToLiveMs\n        author {\n          __typename\n          id\n          tags {\n            ... on Tag {\n              timeToLiveMs\n            }\n          }\n        }\n      }\n    }\n  }\n}\n", .ok [.operation .query ⟨1, 1⟩ (some "GetTagsForNetwork") [] [] [.field ⟨2, 3⟩ none "network" [("id", (.other "\"taggedNetwork\""))] [] [.field ⟨3, 5⟩ none "id" [] [] [], .field ⟨4, 5⟩ none "tags" [] [] [.field ⟨5, 7⟩ none "__typename" [] [] [], .inline ⟨6, 11⟩ (some "Tag") [] [.field ⟨7, 9⟩ none "timeToLiveMs" [] [] [], .field ⟨8, 9⟩ none "author" [] [] [.field ⟨9, 11⟩ none "__typename" [] [] [], .field ⟨10, 11⟩ none "id" [] [] [], .field ⟨11, 11⟩ none "tags" [] [] [.inline ⟨12, 17⟩ (some "Tag") [] [.field ⟨13, 15⟩ none "timeToLiveMs" [] [] []]]]]]]]])]
  tree := .dir (.ofString "/tmp/qlc") [.file (.ofString "/tmp/qlc/tagged_network_query.graphql")]
  expected := [
    ("/tmp/qlc/tagged_network_query.graphql.d.ts", "/* eslint-disable */\n// This file was automatically generated and should not be edited.\n\nimport type { QueryDocumentNode } from \"@notarize/qlc-cli/typed-documentnode\";\n\nexport type GetTagsForNetwork_network_tags_author_tags = {\n  readonly timeToLiveMs: number;\n};\n\nexport type GetTagsForNetwork_network_tags_author = {\n  readonly __typename: \"User\";\n  readonly id: string;\n  readonly tags: GetTagsForNetwork_network_tags_author_tags[];\n};\n\nexport type GetTagsForNetwork_network_tags = {\n  readonly __typename: \"BooleanTag\" | \"JSONTag\" | \"KeyValueTag\";\n  readonly author: GetTagsForNetwork_network_tags_author;\n  readonly timeToLiveMs: number;\n};\n\nexport type GetTagsForNetwork_network = {\n  readonly id: string;\n  readonly tags: GetTagsForNetwork_network_tags[];\n};\n\nexport type GetTagsForNetwork = {\n  readonly network: GetTagsForNetwork_network | null;\n};\n\ndeclare const graphqlDocument: QueryDocumentNode<GetTagsForNetwork, never>;\nexport default graphqlDocument;")]
  code := 0
  output := []

/-- tests/fixtures/typescript/complex/union/compile_union_with_concrete_only. -/
def complex_union_compile_union_with_concrete_only : Fixture where
  args := { rootDir := some (.ofString "/tmp/qlc"), numThreads := some 2, noColor := true }
  files := [
    ("/tmp/qlc/tagged_user_query.graphql", "query GetTagsForCurrentOperator {\n  operator {\n    email\n    tags {\n      __typename\n      ... on JSONTag {\n        content\n      }\n      ... on BooleanTag {\n        name\n      }\n      ... on KeyValueTag {\n        key\n        value\n      }\n      ... on BooleanTag {\n        name\n        not\n        notNot: not\n      }\n    }\n  }\n}\n")]
  docs := [
    ("query GetTagsForCurrentOperator {\n  operator {\n    email\n    tags {\n      __typename\n      ... on JSONTag {\n        content\n      }\n      ... on BooleanTag {\n        name\n      }\n      ... on KeyValueTag {\n        key\n        value\n      }\n      ... on BooleanTag {\n        name\n        not\n        notNot: not\n      }\n    }\n  }\n}\n", .ok [.operation .query ⟨1, 1⟩ (some "GetTagsForCurrentOperator") [] [] [.field ⟨2, 3⟩ none "operator" [] [] [.field ⟨3, 5⟩ none "email" [] [] [], .field ⟨4, 5⟩ none "tags" [] [] [.field ⟨5, 7⟩ none "__typename" [] [] [], .inline ⟨6, 11⟩ (some "JSONTag") [] [.field ⟨7, 9⟩ none "content" [] [] []], .inline ⟨9, 11⟩ (some "BooleanTag") [] [.field ⟨10, 9⟩ none "name" [] [] []], .inline ⟨12, 11⟩ (some "KeyValueTag") [] [.field ⟨13, 9⟩ none "key" [] [] [], .field ⟨14, 9⟩ none "value" [] [] []], .inline ⟨16, 11⟩ (some "BooleanTag") [] [.field ⟨17, 9⟩ none "name" [] [] [], .field ⟨18, 9⟩ none "not" [] [] [], .field ⟨19, 9⟩ (some "notNot") "not" [] [] []]]]]])]
  tree := .dir (.ofString "/tmp/qlc") [.file (.ofString "/tmp/qlc/tagged_user_query.graphql")]
  expected := [
    ("/tmp/qlc/tagged_user_query.graphql.d.ts", "/* eslint-disable */\n// This file was automatically generated and should not be edited.\n\nimport type { QueryDocumentNode } from \"@notarize/qlc-cli/typed-documentnode\";\n\nexport type GetTagsForCurrentOperator_operator_tags_BooleanTag = {\n  readonly __typename: \"BooleanTag\";\n  readonly name: string;\n  /**\n   * If true, this boolean tag has inverted meaning\n   */\n  readonly not: boolean;\n  /**\n   * If true, this boolean tag has inverted meaning\n   */\n  readonly notNot: boolean;\n};\n\nexport type GetTagsForCurrentOperator_operator_tags_JSONTag = {\n  readonly __typename: \"JSONTag\";\n  readonly content: any;\n};\n\nexport type GetTagsForCurrentOperator_operator_tags_KeyValueTag = {\n  readonly __typename: \"KeyValueTag\";\n  readonly key: string;\n  readonly value: string;\n};\n\nexport type GetTagsForCurrentOperator_operator_tags = GetTagsForCurrentOperator_operator_tags_BooleanTag | GetTagsForCurrentOperator_operator_tags_JSONTag | GetTagsForCurrentOperator_operator_tags_KeyValueTag;\n\nexport type GetTagsForCurrentOperator_operator = {\n  readonly email: string;\n  readonly tags: GetTagsForCurrentOperator_operator_tags[];\n};\n\nexport type GetTagsForCurrentOperator = {\n  readonly operator: GetTagsForCurrentOperator_operator | null;\n};\n\ndeclare const graphqlDocument: QueryDocumentNode<GetTagsForCurrentOperator, never>;\nexport default graphqlDocument;")]
  code := 0
  output := []

/-- tests/fixtures/typescript/complex/union/compile_union_with_fragments. -/
def complex_union_compile_union_with_fragments : Fixture where
  args := { rootDir := some (.ofString "/tmp/qlc"), numThreads := some 2, noColor := true }
  files := [
    ("/tmp/qlc/resource_tag_fragment.graphql", "fragment MyResourceTag on ResourceTag {\n  __typename\n  ... on Tag {\n    author {\n      id\n      email\n    }\n    timeToLiveMs\n  }\n  ... on BooleanTag {\n    name\n    not\n  }\n  ... on KeyValueTag {\n    timeToLiveMs\n    keyTTL: timeToLiveMs\n    key\n    anotherKeyName: key\n    value\n  }\n}\n")]
  docs := [
    ("fragment MyResourceTag on ResourceTag {\n  __typename\n  ... on Tag {\n    author {\n      id\n      email\n    }\n    timeToLiveMs\n  }\n  ... on BooleanTag {\n    name\n    not\n  }\n  ... on KeyValueTag {\n    timeToLiveMs\n    keyTTL: timeToLiveMs\n    key\n    anotherKeyName: key\n    value\n  }\n}\n", .ok [.fragment ⟨⟨1, 1⟩, "MyResourceTag", "ResourceTag", [], [.field ⟨2, 3⟩ none "__typename" [] [] [], .inline ⟨3, 7⟩ (some "Tag") [] [.field ⟨4, 5⟩ none "author" [] [] [.field ⟨5, 7⟩ none "id" [] [] [], .field ⟨6, 7⟩ none "email" [] [] []], .field ⟨8, 5⟩ none "timeToLiveMs" [] [] []], .inline ⟨10, 7⟩ (some "BooleanTag") [] [.field ⟨11, 5⟩ none "name" [] [] [], .field ⟨12, 5⟩ none "not" [] [] []], .inline ⟨14, 7⟩ (some "KeyValueTag") [] [.field ⟨15, 5⟩ none "timeToLiveMs" [] [] [], .field ⟨16, 5⟩ (some "keyTTL") "timeToLiveMs" [] [] [], .field ⟨17, 5⟩ none "key" [] [] [], .field ⟨18, 5⟩ (some "anotherKeyName") "key" [] [] [], .field ⟨19, 5⟩ none "value" [] [] []]]⟩])]
  tree := .dir (.ofString "/tmp/qlc") [.file (.ofString "/tmp/qlc/resource_tag_fragment.graphql")]
  expected := [
    ("/tmp/qlc/resource_tag_fragment.graphql.d.ts", "/* eslint-disable */\n// This file was automatically generated and should not be edited.\n\nimport type { FragmentDocumentNode } from \"@notarize/qlc-cli/typed-documentnode\";\n\nexport type MyResourceTag_BooleanTag_author = {\n  readonly email: string;\n  readonly id: string;\n};\n\nexport type MyResourceTag_BooleanTag = {\n  readonly __typename: \"BooleanTag\";\n  readonly author: MyResourceTag_BooleanTag_author;\n  readonly name: string;\n  /**\n   * If true, this boolean tag has inverted meaning\n   */\n  readonly not: boolean;\n  readonly timeToLiveMs: number;\n};\n\nexport type MyResourceTag_KeyValueTag_author = {\n  readonly email: string;\n  readonly id: string;\n};\n\nexport type MyResourceTag_KeyValueTag = {\n  readonly __typename: \"KeyValueTag\";\n  readonly anotherKeyName: string;\n  readonly author: MyResourceTag_KeyValueTag_author;\n  readonly key: string;\n  readonly keyTTL: number;\n  readonly timeToLiveMs: number;\n  readonly value: string;\n};\n\nexport type MyResourceTag_$$other_author = {\n  readonly email: string;\n  readonly id: string;\n};\n\nexport type MyResourceTag_$$other = {\n  readonly __typename: \"JSONTag\";\n  readonly author: MyResourceTag_$$other_author;\n  readonly timeToLiveMs: number;\n};\n\nexport type MyResourceTag = MyResourceTag_BooleanTag | MyResourceTag_KeyValueTag | MyResourceTag_$$other;\n\ndeclare const graphqlDocument: FragmentDocumentNode<MyResourceTag>;\nexport default graphqlDocument;")]
  code := 0
  output := []

/-- tests/fixtures/typescript/complex/union/compile_union_with_typenames. -/
def complex_union_compile_union_with_typenames : Fixture where
  args := { rootDir := some (.ofString "/tmp/qlc"), numThreads := some 2, noColor := true }
  files := [
    ("/tmp/qlc/tagged_host_query.graphql", "query GetTagTypeNamesForHost {\n  host(id: \"taggedHost\") {\n    tags {\n      __typename\n      as: __typename\n\n      ... on JSONTag {\n        typername: __typename\n        content\n      }\n\n      ... on BooleanTag {\n        name\n      }\n    }\n  }\n}\n")]
  docs := [
    ("query GetTagTypeNamesForHost {\n  host(id: \"taggedHost\") {\n    tags {\n      __typename\n      as: __typename\n\n      ... on JSONTag {\n        typername: __typename\n        content\n      }\n\n      ... on BooleanTag {\n        name\n      }\n    }\n  }\n}\n", .ok [.operation .query ⟨1, 1⟩ (some "GetTagTypeNamesForHost") [] [] [.field ⟨2, 3⟩ none "host" [("id", (.other "\"taggedHost\""))] [] [.field ⟨3, 5⟩ none "tags" [] [] [.field ⟨4, 7⟩ none "__typename" [] [] [], .field ⟨5, 7⟩ (some "as") "__typename" [] [] [], .inline ⟨7, 11⟩ (some "JSONTag") [] [.field ⟨8, 9⟩ (some "typername") "__typename" [] [] [], .field ⟨9, 9⟩ none "content" [] [] []], .inline ⟨12, 11⟩ (some "BooleanTag") [] [.field ⟨13, 9⟩ none "name" [] [] []]]]]])]
  tree := .dir (.ofString "/tmp/qlc") [.file (.ofString "/tmp/qlc/tagged_host_query.graphql")]
  expected := [
    ("/tmp/qlc/tagged_host_query.graphql.d.ts", "/* eslint-disable */\n// This file was automatically generated and should not be edited.\n\nimport type { QueryDocumentNode } from \"@notarize/qlc-cli/typed-documentnode\";\n\nexport type GetTagTypeNamesForHost_host_tags_BooleanTag = {\n  readonly __typename: \"BooleanTag\";\n  readonly as: \"BooleanTag\";\n  readonly name: string;\n};\n\nexport type GetTagTypeNamesForHost_host_tags_JSONTag = {\n  readonly __typename: \"JSONTag\";\n  readonly as: \"JSONTag\";\n  readonly content: any;\n  readonly typername: \"JSONTag\";\n};\n\nexport type GetTagTypeNamesForHost_host_tags_$$other = {\n  readonly __typename: \"KeyValueTag\";\n  readonly as: \"KeyValueTag\";\n};\n\nexport type GetTagTypeNamesForHost_host_tags = GetTagTypeNamesForHost_host_tags_BooleanTag | GetTagTypeNamesForHost_host_tags_JSONTag | GetTagTypeNamesForHost_host_tags_$$other;\n\nexport type GetTagTypeNamesForHost_host = {\n  readonly tags: GetTagTypeNamesForHost_host_tags[];\n};\n\nexport type GetTagTypeNamesForHost = {\n  readonly host: GetTagTypeNamesForHost_host | null;\n};\n\ndeclare const graphqlDocument: QueryDocumentNode<GetTagTypeNamesForHost, never>;\nexport default graphqlDocument;")]
  code := 0
  output := []

/-- tests/fixtures/typescript/complex/interface/compile_interface_abstract_only. -/
def complex_interface_compile_interface_abstract_only : Fixture where
  args := { rootDir := some (.ofString "/tmp/qlc"), numThreads := some 2, noColor := true }
  files := [
    ("/tmp/qlc/get_by_node.graphql", "query GetByNodeAbstractOnly {\n  host: node(id: \"host568\") {\n    id\n  }\n}\n")]
  docs := [
    ("query GetByNodeAbstractOnly {\n  host: node(id: \"host568\") {\n    id\n  }\n}\n", .ok [.operation .query ⟨1, 1⟩ (some "GetByNodeAbstractOnly") [] [] [.field ⟨2, 3⟩ (some "host") "node" [("id", (.other "\"host568\""))] [] [.field ⟨3, 5⟩ none "id" [] [] []]]])]
  tree := .dir (.ofString "/tmp/qlc") [.file (.ofString "/tmp/qlc/get_by_node.graphql")]
  expected := [
    ("/tmp/qlc/get_by_node.graphql.d.ts", "/* eslint-disable */\n// This file was automatically generated and should not be edited.\n\nimport type { QueryDocumentNode } from \"@notarize/qlc-cli/typed-documentnode\";\n\nexport type GetByNodeAbstractOnly_host = {\n  readonly id: string;\n};\n\nexport type GetByNodeAbstractOnly = {\n  readonly host: GetByNodeAbstractOnly_host | null;\n};\n\ndeclare const graphqlDocument: QueryDocumentNode<GetByNodeAbstractOnly, never>;\nexport default graphqlDocument;")]
  code := 0
  output := []

/-- tests/fixtures/typescript/complex/interface/compile_interface_both_concrete_and_abstract. -/
def complex_interface_compile_interface_both_concrete_and_abstract : Fixture where
  args := { rootDir := some (.ofString "/tmp/qlc"), numThreads := some 2, noColor := true }
  files := [
    ("/tmp/qlc/get_by_node.graphql", "query GetSeveralNodesWithConcreteAndAbstract {\n  someNetwork: node(id: \"network653\") {\n    id\n    __typename\n    ... on Network {\n      cidr\n      ipv6Cidr\n    }\n  }\n  justHiredOperator: node(id: \"user9999\") {\n    __typename\n    id\n    # Also see what happens when we spread second type\n    ... on Network {\n      cidr\n    }\n    ... on User {\n      id\n      email\n      firstName\n      lastName\n    }\n  }\n}\n")]
  docs := [
    ("query GetSeveralNodesWithConcreteAndAbstract {\n  someNetwork: node(id: \"network653\") {\n    id\n    __typename\n    ... on Network {\n      cidr\n      ipv6Cidr\n    }\n  }\n  justHiredOperator: node(id: \"user9999\") {\n    __typename\n    id\n    # Also see what happens when we spread second type\n    ... on Network {\n      cidr\n    }\n    ... on User {\n      id\n      email\n      firstName\n      lastName\n    }\n  }\n}\n", .ok [.operation .query ⟨1, 1⟩ (some "GetSeveralNodesWithConcreteAndAbstract") [] [] [.field ⟨2, 3⟩ (some "someNetwork") "node" [("id", (.other "\"network653\""))] [] [.field ⟨3, 5⟩ none "id" [] [] [], .field ⟨4, 5⟩ none "__typename" [] [] [], .inline ⟨5, 9⟩ (some "Network") [] [.field ⟨6, 7⟩ none "cidr" [] [] [], .field ⟨7, 7⟩ none "ipv6Cidr" [] [] []]], .field ⟨10, 3⟩ (some "justHiredOperator") "node" [("id", (.other "\"user9999\""))] [] [.field ⟨11, 5⟩ none "__typename" [] [] [], .field ⟨12, 5⟩ none "id" [] [] [], .inline ⟨14, 9⟩ (some "Network") [] [.field ⟨15, 7⟩ none "cidr" [] [] []], .inline ⟨17, 9⟩ (some "User") [] [.field ⟨18, 7⟩ none "id" [] [] [], .field ⟨19, 7⟩ none "email" [] [] [], .field ⟨20, 7⟩ none "firstName" [] [] [], .field ⟨21, 7⟩ none "lastName" [] [] []]]]])]
  tree := .dir (.ofString "/tmp/qlc") [.file (.ofString "/tmp/qlc/get_by_node.graphql")]
  expected := [
    ("/tmp/qlc/get_by_node.graphql.d.ts", "/* eslint-disable */\n// This file was automatically generated and should not be edited.\n\nimport type { QueryDocumentNode } from \"@notarize/qlc-cli/typed-documentnode\";\n\nexport type GetSeveralNodesWithConcreteAndAbstract_justHiredOperator_Network = {\n  readonly __typename: \"Network\";\n  readonly cidr: string;\n  readonly id: string;\n};\n\nexport type GetSeveralNodesWithConcreteAndAbstract_justHiredOperator_User = {\n  readonly __typename: \"User\";\n  readonly email: string;\n  readonly firstName: string;\n  readonly id: string;\n  readonly lastName: string;\n};\n\nexport type GetSeveralNodesWithConcreteAndAbstract_justHiredOperator_$$other = {\n  readonly __typename: \"Host\";\n  readonly id: string;\n};\n\nexport type GetSeveralNodesWithConcreteAndAbstract_justHiredOperator = GetSeveralNodesWithConcreteAndAbstract_justHiredOperator_Network | GetSeveralNodesWithConcreteAndAbstract_justHiredOperator_User | GetSeveralNodesWithConcreteAndAbstract_justHiredOperator_$$other;\n\nexport type GetSeveralNodesWithConcreteAndAbstract_someNetwork_Network = {\n  readonly __typename: \"Network\";\n  readonly cidr: string;\n  readonly id: string;\n  readonly ipv6Cidr: string | null;\n};\n\nexport type GetSeveralNodesWithConcreteAndAbstract_someNetwork_$$other = {\n  readonly __typename: \"Host\" | \"User\";\n  readonly id: string;\n};\n\nexport type GetSeveralNodesWithConcreteAndAbstract_someNetwork = GetSeveralNodesWithConcreteAndAbstract_someNetwork_Network | GetSeveralNodesWithConcreteAndAbstract_someNetwork_$$other;\n\nexport type GetSeveralNodesWithConcreteAndAbstract = {\n  readonly justHiredOperator: GetSeveralNodesWithConcreteAndAbstract_justHiredOperator | null;\n  readonly someNetwork: GetSeveralNodesWithConcreteAndAbstract_someNetwork | null;\n};\n\ndeclare const graphqlDocument: QueryDocumentNode<GetSeveralNodesWithConcreteAndAbstract, never>;\nexport default graphqlDocument;")]
  code := 0
  output := []

/-- tests/fixtures/typescript/complex/interface/compile_interface_concrete_only. -/
def complex_interface_compile_interface_concrete_only : Fixture where
  args := { rootDir := some (.ofString "/tmp/qlc"), numThreads := some 2, noColor := true }
  files := [
    ("/tmp/qlc/get_by_node.graphql", "query GetByNodeConcreteOnly {\n  desiredUser: node(id: \"user965\") {\n    ... on User {\n      email\n      firstName\n    }\n  }\n}\n")]
  docs := [
    ("query GetByNodeConcreteOnly {\n  desiredUser: node(id: \"user965\") {\n    ... on User {\n      email\n      firstName\n    }\n  }\n}\n", .ok [.operation .query ⟨1, 1⟩ (some "GetByNodeConcreteOnly") [] [] [.field ⟨2, 3⟩ (some "desiredUser") "node" [("id", (.other "\"user965\""))] [] [.inline ⟨3, 9⟩ (some "User") [] [.field ⟨4, 7⟩ none "email" [] [] [], .field ⟨5, 7⟩ none "firstName" [] [] []]]]])]
  tree := .dir (.ofString "/tmp/qlc") [.file (.ofString "/tmp/qlc/get_by_node.graphql")]
  expected := [
    ("/tmp/qlc/get_by_node.graphql.d.ts", "/* eslint-disable */\n// This file was automatically generated and should not be edited.\n\nimport type { QueryDocumentNode } from \"@notarize/qlc-cli/typed-documentnode\";\n\nexport type GetByNodeConcreteOnly_desiredUser_User = {\n  readonly email: string;\n  readonly firstName: string;\n};\n\nexport type GetByNodeConcreteOnly_desiredUser_$$other = {\n\n};\n\nexport type GetByNodeConcreteOnly_desiredUser = GetByNodeConcreteOnly_desiredUser_User | GetByNodeConcreteOnly_desiredUser_$$other;\n\nexport type GetByNodeConcreteOnly = {\n  readonly desiredUser: GetByNodeConcreteOnly_desiredUser | null;\n};\n\ndeclare const graphqlDocument: QueryDocumentNode<GetByNodeConcreteOnly, never>;\nexport default graphqlDocument;")]
  code := 0
  output := []

/-- tests/fixtures/typescript/complex/interface/compile_interface_with_typename. -/
def complex_interface_compile_interface_with_typename : Fixture where
  args := { rootDir := some (.ofString "/tmp/qlc"), numThreads := some 2, noColor := true }
  files := [
    ("/tmp/qlc/get_by_node.graphql", "query GetByNodeWithInterface {\n  network123: node(id: \"network123\") {\n    __typename\n    as: __typename\n    ... on Network {\n      __typename\n      another: __typename\n      cidr\n      hosts {\n        totalCount\n      }\n    }\n  }\n}\n")]
  docs := [
    ("query GetByNodeWithInterface {\n  network123: node(id: \"network123\") {\n    __typename\n    as: __typename\n    ... on Network {\n      __typename\n      another: __typename\n      cidr\n      hosts {\n        totalCount\n      }\n    }\n  }\n}\n", .ok [.operation .query ⟨1, 1⟩ (some "GetByNodeWithInterface") [] [] [.field ⟨2, 3⟩ (some "network123") "node" [("id", (.other "\"network123\""))] [] [.field ⟨3, 5⟩ none "__typename" [] [] [], .field ⟨4, 5⟩ (some "as") "__typename" [] [] [], .inline ⟨5, 9⟩ (some "Network") [] [.field ⟨6, 7⟩ none "__typename" [] [] [], .field ⟨7, 7⟩ (some "another") "__typename" [] [] [], .field ⟨8, 7⟩ none "cidr" [] [] [], .field ⟨9, 7⟩ none "hosts" [] [] [.field ⟨10, 9⟩ none "totalCount" [] [] []]]]]])]
  tree := .dir (.ofString "/tmp/qlc") [.file (.ofString "/tmp/qlc/get_by_node.graphql")]
  expected := [
    ("/tmp/qlc/get_by_node.graphql.d.ts", "/* eslint-disable */\n// This file was automatically generated and should not be edited.\n\nimport type { QueryDocumentNode } from \"@notarize/qlc-cli/typed-documentnode\";\n\nexport type GetByNodeWithInterface_network123_Network_hosts = {\n  readonly totalCount: number;\n};\n\nexport type GetByNodeWithInterface_network123_Network = {\n  readonly __typename: \"Network\";\n  readonly another: \"Network\";\n  readonly as: \"Network\";\n  readonly cidr: string;\n  readonly hosts: GetByNodeWithInterface_network123_Network_hosts;\n};\n\nexport type GetByNodeWithInterface_network123_$$other = {\n  readonly __typename: \"Host\" | \"User\";\n  readonly as: \"Host\" | \"User\";\n};\n\nexport type GetByNodeWithInterface_network123 = GetByNodeWithInterface_network123_Network | GetByNodeWithInterface_network123_$$other;\n\nexport type GetByNodeWithInterface = {\n  readonly network123: GetByNodeWithInterface_network123 | null;\n};\n\ndeclare const graphqlDocument: QueryDocumentNode<GetByNodeWithInterface, never>;\nexport default graphqlDocument;")]
  code := 0
  output := []

/-- tests/fixtures/typescript/enumeration/compile_with_global_types. -/
def enumeration_compile_with_global_types : Fixture where
  args := { rootDir := some (.ofString "/tmp/qlc"), numThreads := some 2, noColor := true }
  files := [
    ("/tmp/qlc/globals_query.graphql", "query WithGlobals {\n  operator {\n    personalHost {\n      id\n      operatingSystem\n    }\n  }\n}\n")]
  docs := [
    ("query WithGlobals {\n  operator {\n    personalHost {\n      id\n      operatingSystem\n    }\n  }\n}\n", .ok [.operation .query ⟨1, 1⟩ (some "WithGlobals") [] [] [.field ⟨2, 3⟩ none "operator" [] [] [.field ⟨3, 5⟩ none "personalHost" [] [] [.field ⟨4, 7⟩ none "id" [] [] [], .field ⟨5, 7⟩ none "operatingSystem" [] [] []]]]])]
  tree := .dir (.ofString "/tmp/qlc") [.file (.ofString "/tmp/qlc/globals_query.graphql")]
  expected := [
    ("/tmp/qlc/globals_query.graphql.d.ts", "/* eslint-disable */\n// This file was automatically generated and should not be edited.\n\nimport type { QueryDocumentNode } from \"@notarize/qlc-cli/typed-documentnode\";\nimport type { OperatingSystem } from \"graphql-globals\";\n\nexport type WithGlobals_operator_personalHost = {\n  readonly id: string;\n  readonly operatingSystem: OperatingSystem;\n};\n\nexport type WithGlobals_operator = {\n  /**\n   * A user's personal device\n   */\n  readonly personalHost: WithGlobals_operator_personalHost;\n};\n\nexport type WithGlobals = {\n  readonly operator: WithGlobals_operator | null;\n};\n\ndeclare const graphqlDocument: QueryDocumentNode<WithGlobals, never>;\nexport default graphqlDocument;"),
    ("/tmp/qlc/graphql-globals.ts", "/* eslint-disable */\n// This file was automatically generated and should not be edited.\n\n/**\n * An OS makes hardware useful\n */\nexport enum OperatingSystem {\n  ARCH_LINUX = \"ARCH_LINUX\",\n  FREEBSD = \"FREEBSD\",\n  UBUNTU_LINUX = \"UBUNTU_LINUX\",\n}")]
  code := 0
  output := []

/-- tests/fixtures/typescript/field/compile_custom_scalar_any. -/
def field_compile_custom_scalar_any : Fixture where
  args := { rootDir := some (.ofString "/tmp/qlc"), numThreads := some 2, noColor := true }
  files := [
    ("/tmp/qlc/custom_scalar_query.graphql", "query CustomScalar {\n  operator {\n    id\n    activity {\n      login\n    }\n  }\n}\n")]
  docs := [
    ("query CustomScalar {\n  operator {\n    id\n    activity {\n      login\n    }\n  }\n}\n", .ok [.operation .query ⟨1, 1⟩ (some "CustomScalar") [] [] [.field ⟨2, 3⟩ none "operator" [] [] [.field ⟨3, 5⟩ none "id" [] [] [], .field ⟨4, 5⟩ none "activity" [] [] [.field ⟨5, 7⟩ none "login" [] [] []]]]])]
  tree := .dir (.ofString "/tmp/qlc") [.file (.ofString "/tmp/qlc/custom_scalar_query.graphql")]
  expected := [
    ("/tmp/qlc/custom_scalar_query.graphql.d.ts", "/* eslint-disable */\n// This file was automatically generated and should not be edited.\n\nimport type { QueryDocumentNode } from \"@notarize/qlc-cli/typed-documentnode\";\n\nexport type CustomScalar_operator_activity = {\n  /**\n   * User's last time successfully authenticating\n   */\n  readonly login: any | null;\n};\n\nexport type CustomScalar_operator = {\n  /**\n   * User's activity timestamps\n   */\n  readonly activity: CustomScalar_operator_activity;\n  readonly id: string;\n};\n\nexport type CustomScalar = {\n  readonly operator: CustomScalar_operator | null;\n};\n\ndeclare const graphqlDocument: QueryDocumentNode<CustomScalar, never>;\nexport default graphqlDocument;")]
  code := 0
  output := []

/-- tests/fixtures/typescript/field/compile_custom_scalar_with_default_names. -/
def field_compile_custom_scalar_with_default_names : Fixture where
  args := { rootDir := some (.ofString "/tmp/qlc"), numThreads := some 2, noColor := true, useCustomScalars := true }
  files := [
    ("/tmp/qlc/custom_scalar_query.graphql", "query CustomScalar {\n  operator {\n    id\n    activity {\n      login\n    }\n  }\n}\n")]
  docs := [
    ("query CustomScalar {\n  operator {\n    id\n    activity {\n      login\n    }\n  }\n}\n", .ok [.operation .query ⟨1, 1⟩ (some "CustomScalar") [] [] [.field ⟨2, 3⟩ none "operator" [] [] [.field ⟨3, 5⟩ none "id" [] [] [], .field ⟨4, 5⟩ none "activity" [] [] [.field ⟨5, 7⟩ none "login" [] [] []]]]])]
  tree := .dir (.ofString "/tmp/qlc") [.file (.ofString "/tmp/qlc/custom_scalar_query.graphql")]
  expected := [
    ("/tmp/qlc/custom_scalar_query.graphql.d.ts", "/* eslint-disable */\n// This file was automatically generated and should not be edited.\n\nimport type { QueryDocumentNode } from \"@notarize/qlc-cli/typed-documentnode\";\n\nexport type CustomScalar_operator_activity = {\n  /**\n   * User's last time successfully authenticating\n   */\n  readonly login: ISO8601 | null;\n};\n\nexport type CustomScalar_operator = {\n  /**\n   * User's activity timestamps\n   */\n  readonly activity: CustomScalar_operator_activity;\n  readonly id: string;\n};\n\nexport type CustomScalar = {\n  readonly operator: CustomScalar_operator | null;\n};\n\ndeclare const graphqlDocument: QueryDocumentNode<CustomScalar, never>;\nexport default graphqlDocument;")]
  code := 0
  output := []

/-- tests/fixtures/typescript/field/compile_custom_scalar_with_prefixed_names. -/
def field_compile_custom_scalar_with_prefixed_names : Fixture where
  args := { rootDir := some (.ofString "/tmp/qlc"), numThreads := some 2, noColor := true, useCustomScalars := true, customScalarPrefix := some "Prefix" }
  files := [
    ("/tmp/qlc/custom_scalar_query.graphql", "query CustomScalar {\n  operator {\n    id\n    activity {\n      login\n    }\n  }\n}\n")]
  docs := [
    ("query CustomScalar {\n  operator {\n    id\n    activity {\n      login\n    }\n  }\n}\n", .ok [.operation .query ⟨1, 1⟩ (some "CustomScalar") [] [] [.field ⟨2, 3⟩ none "operator" [] [] [.field ⟨3, 5⟩ none "id" [] [] [], .field ⟨4, 5⟩ none "activity" [] [] [.field ⟨5, 7⟩ none "login" [] [] []]]]])]
  tree := .dir (.ofString "/tmp/qlc") [.file (.ofString "/tmp/qlc/custom_scalar_query.graphql")]
  expected := [
    ("/tmp/qlc/custom_scalar_query.graphql.d.ts", "/* eslint-disable */\n// This file was automatically generated and should not be edited.\n\nimport type { QueryDocumentNode } from \"@notarize/qlc-cli/typed-documentnode\";\n\nexport type CustomScalar_operator_activity = {\n  /**\n   * User's last time successfully authenticating\n   */\n  readonly login: PrefixISO8601 | null;\n};\n\nexport type CustomScalar_operator = {\n  /**\n   * User's activity timestamps\n   */\n  readonly activity: CustomScalar_operator_activity;\n  readonly id: string;\n};\n\nexport type CustomScalar = {\n  readonly operator: CustomScalar_operator | null;\n};\n\ndeclare const graphqlDocument: QueryDocumentNode<CustomScalar, never>;\nexport default graphqlDocument;")]
  code := 0
  output := []

/-- tests/fixtures/typescript/field/compile_fields_with_recursive_list_types. -/
def field_compile_fields_with_recursive_list_types : Fixture where
  args := { rootDir := some (.ofString "/tmp/qlc"), numThreads := some 2, noColor := true }
  files := [
    ("/tmp/qlc/with_recursive_lists_query.graphql", "query WithRecursiveListFields {\n  network(id: \"networkWithTopology\") {\n    id\n    # A list of lists\n    hostIdGroups\n    # A list of list of lists of nulls :)\n    hostIdTopology\n  }\n}\n")]
  docs := [
    ("query WithRecursiveListFields {\n  network(id: \"networkWithTopology\") {\n    id\n    # A list of lists\n    hostIdGroups\n    # A list of list of lists of nulls :)\n    hostIdTopology\n  }\n}\n", .ok [.operation .query ⟨1, 1⟩ (some "WithRecursiveListFields") [] [] [.field ⟨2, 3⟩ none "network" [("id", (.other "\"networkWithTopology\""))] [] [.field ⟨3, 5⟩ none "id" [] [] [], .field ⟨5, 5⟩ none "hostIdGroups" [] [] [], .field ⟨7, 5⟩ none "hostIdTopology" [] [] []]]])]
  tree := .dir (.ofString "/tmp/qlc") [.file (.ofString "/tmp/qlc/with_recursive_lists_query.graphql")]
  expected := [
    ("/tmp/qlc/with_recursive_lists_query.graphql.d.ts", "/* eslint-disable */\n// This file was automatically generated and should not be edited.\n\nimport type { QueryDocumentNode } from \"@notarize/qlc-cli/typed-documentnode\";\n\nexport type WithRecursiveListFields_network = {\n  readonly hostIdGroups: (string[])[];\n  readonly hostIdTopology: (((((string | null)[] | null) | null)[] | null) | null)[] | null;\n  readonly id: string;\n};\n\nexport type WithRecursiveListFields = {\n  readonly network: WithRecursiveListFields_network | null;\n};\n\ndeclare const graphqlDocument: QueryDocumentNode<WithRecursiveListFields, never>;\nexport default graphqlDocument;")]
  code := 0
  output := []

/-- tests/fixtures/typescript/field/compile_fields_with_deprecation_marker. -/
def field_compile_fields_with_deprecation_marker : Fixture where
  args := { rootDir := some (.ofString "/tmp/qlc"), numThreads := some 2, noColor := true }
  files := [
    ("/tmp/qlc/with_deprecated_query.graphql", "query WithDeprecatedFields {\n  operator {\n    id\n    # publicRSAKey is deprecated but has no documentation\n    publicRSAKey\n    # lastLogin is deprecated and has documentation\n    lastLogin\n  }\n}\n")]
  docs := [
    ("query WithDeprecatedFields {\n  operator {\n    id\n    # publicRSAKey is deprecated but has no documentation\n    publicRSAKey\n    # lastLogin is deprecated and has documentation\n    lastLogin\n  }\n}\n", .ok [.operation .query ⟨1, 1⟩ (some "WithDeprecatedFields") [] [] [.field ⟨2, 3⟩ none "operator" [] [] [.field ⟨3, 5⟩ none "id" [] [] [], .field ⟨5, 5⟩ none "publicRSAKey" [] [] [], .field ⟨7, 5⟩ none "lastLogin" [] [] []]]])]
  tree := .dir (.ofString "/tmp/qlc") [.file (.ofString "/tmp/qlc/with_deprecated_query.graphql")]
  expected := [
    ("/tmp/qlc/with_deprecated_query.graphql.d.ts", "/* eslint-disable */\n// This file was automatically generated and should not be edited.\n\nimport type { QueryDocumentNode } from \"@notarize/qlc-cli/typed-documentnode\";\n\nexport type WithDeprecatedFields_operator = {\n  readonly id: string;\n  /**\n   * User's last time logging in\n   * @deprecated\n   */\n  readonly lastLogin: any | null;\n  /**\n   * @deprecated\n   */\n  readonly publicRSAKey: string;\n};\n\nexport type WithDeprecatedFields = {\n  readonly operator: WithDeprecatedFields_operator | null;\n};\n\ndeclare const graphqlDocument: QueryDocumentNode<WithDeprecatedFields, never>;\nexport default graphqlDocument;")]
  code := 0
  output := []

/-- tests/fixtures/typescript/field/compile_fields_without_readonly_marker. -/
def field_compile_fields_without_readonly_marker : Fixture where
  args := { rootDir := some (.ofString "/tmp/qlc"), numThreads := some 2, noColor := true, disableReadonlyTypes := true }
  files := [
    ("/tmp/qlc/with_deprecated_query.graphql", "query NoReadOnlyPlease {\n  operator {\n    id\n    personalHost {\n      numCpus\n    }\n  }\n}\n")]
  docs := [
    ("query NoReadOnlyPlease {\n  operator {\n    id\n    personalHost {\n      numCpus\n    }\n  }\n}\n", .ok [.operation .query ⟨1, 1⟩ (some "NoReadOnlyPlease") [] [] [.field ⟨2, 3⟩ none "operator" [] [] [.field ⟨3, 5⟩ none "id" [] [] [], .field ⟨4, 5⟩ none "personalHost" [] [] [.field ⟨5, 7⟩ none "numCpus" [] [] []]]]])]
  tree := .dir (.ofString "/tmp/qlc") [.file (.ofString "/tmp/qlc/with_deprecated_query.graphql")]
  expected := [
    ("/tmp/qlc/with_deprecated_query.graphql.d.ts", "/* eslint-disable */\n// This file was automatically generated and should not be edited.\n\nimport type { QueryDocumentNode } from \"@notarize/qlc-cli/typed-documentnode\";\n\nexport type NoReadOnlyPlease_operator_personalHost = {\n  numCpus: number;\n};\n\nexport type NoReadOnlyPlease_operator = {\n  id: string;\n  /**\n   * A user's personal device\n   */\n  personalHost: NoReadOnlyPlease_operator_personalHost;\n};\n\nexport type NoReadOnlyPlease = {\n  operator: NoReadOnlyPlease_operator | null;\n};\n\ndeclare const graphqlDocument: QueryDocumentNode<NoReadOnlyPlease, never>;\nexport default graphqlDocument;")]
  code := 0
  output := []

/-- tests/fixtures/typescript/variable/compile_mutation_with_inputs_including_lists. -/
def variable_compile_mutation_with_inputs_including_lists : Fixture where
  args := { rootDir := some (.ofString "/tmp/qlc"), numThreads := some 2, noColor := true }
  files := [
    ("/tmp/qlc/variables_including_lists_mutation.graphql", "mutation AddHostToManyNetworks($input: AttachHostToNetworksInput!) {\n  attachHostToNetworks(input: $input) {\n    host {\n      id\n      networks {\n        id\n      }\n    }\n  }\n}\n")]
  docs := [
    ("mutation AddHostToManyNetworks($input: AttachHostToNetworksInput!) {\n  attachHostToNetworks(input: $input) {\n    host {\n      id\n      networks {\n        id\n      }\n    }\n  }\n}\n", .ok [.operation .mutation ⟨1, 1⟩ (some "AddHostToManyNetworks") [⟨⟨1, 32⟩, "input", (.nonNull (.named "AttachHostToNetworksInput")), none⟩] [] [.field ⟨2, 3⟩ none "attachHostToNetworks" [("input", (.var "input"))] [] [.field ⟨3, 5⟩ none "host" [] [] [.field ⟨4, 7⟩ none "id" [] [] [], .field ⟨5, 7⟩ none "networks" [] [] [.field ⟨6, 9⟩ none "id" [] [] []]]]]])]
  tree := .dir (.ofString "/tmp/qlc") [.file (.ofString "/tmp/qlc/variables_including_lists_mutation.graphql")]
  expected := [
    ("/tmp/qlc/graphql-globals.ts", "/* eslint-disable */\n// This file was automatically generated and should not be edited.\n\nexport type AttachHostToNetworksInput = {\n  /**\n   * ID of host to attach\n   */\n  hostId: string;\n  /**\n   * IDs of networks to attach to\n   */\n  networkIds: string[];\n};"),
    ("/tmp/qlc/variables_including_lists_mutation.graphql.d.ts", "/* eslint-disable */\n// This file was automatically generated and should not be edited.\n\nimport type { MutationDocumentNode } from \"@notarize/qlc-cli/typed-documentnode\";\nimport type { AttachHostToNetworksInput } from \"graphql-globals\";\n\nexport type AddHostToManyNetworks_attachHostToNetworks_host_networks = {\n  readonly id: string;\n};\n\nexport type AddHostToManyNetworks_attachHostToNetworks_host = {\n  readonly id: string;\n  readonly networks: AddHostToManyNetworks_attachHostToNetworks_host_networks[];\n};\n\nexport type AddHostToManyNetworks_attachHostToNetworks = {\n  readonly host: AddHostToManyNetworks_attachHostToNetworks_host;\n};\n\nexport type AddHostToManyNetworks = {\n  readonly attachHostToNetworks: AddHostToManyNetworks_attachHostToNetworks;\n};\n\nexport type AddHostToManyNetworksVariables = {\n  input: AttachHostToNetworksInput;\n};\n\ndeclare const graphqlDocument: MutationDocumentNode<AddHostToManyNetworks, AddHostToManyNetworksVariables>;\nexport default graphqlDocument;")]
  code := 0
  output := []

/-- tests/fixtures/typescript/variable/compile_mutation_with_variables. -/
def variable_compile_mutation_with_variables : Fixture where
  args := { rootDir := some (.ofString "/tmp/qlc"), numThreads := some 2, noColor := true }
  files := [
    ("/tmp/qlc/simple_with_variables_mutation.graphql", "mutation SimpleProvision($input: ProvisionHostInput!) {\n  provisionHost(input: $input) {\n    host {\n      id\n    }\n  }\n}\n")]
  docs := [
    ("mutation SimpleProvision($input: ProvisionHostInput!) {\n  provisionHost(input: $input) {\n    host {\n      id\n    }\n  }\n}\n", .ok [.operation .mutation ⟨1, 1⟩ (some "SimpleProvision") [⟨⟨1, 26⟩, "input", (.nonNull (.named "ProvisionHostInput")), none⟩] [] [.field ⟨2, 3⟩ none "provisionHost" [("input", (.var "input"))] [] [.field ⟨3, 5⟩ none "host" [] [] [.field ⟨4, 7⟩ none "id" [] [] []]]]])]
  tree := .dir (.ofString "/tmp/qlc") [.file (.ofString "/tmp/qlc/simple_with_variables_mutation.graphql")]
  expected := [
    ("/tmp/qlc/graphql-globals.ts", "/* eslint-disable */\n// This file was automatically generated and should not be edited.\n\n/**\n * An OS makes hardware useful\n */\nexport enum OperatingSystem {\n  ARCH_LINUX = \"ARCH_LINUX\",\n  FREEBSD = \"FREEBSD\",\n  UBUNTU_LINUX = \"UBUNTU_LINUX\",\n}\n\nexport type ProvisionHostInput = {\n  os: OperatingSystem;\n};"),
    ("/tmp/qlc/simple_with_variables_mutation.graphql.d.ts", "/* eslint-disable */\n// This file was automatically generated and should not be edited.\n\nimport type { MutationDocumentNode } from \"@notarize/qlc-cli/typed-documentnode\";\nimport type { ProvisionHostInput } from \"graphql-globals\";\n\nexport type SimpleProvision_provisionHost_host = {\n  readonly id: string;\n};\n\nexport type SimpleProvision_provisionHost = {\n  readonly host: SimpleProvision_provisionHost_host;\n};\n\nexport type SimpleProvision = {\n  /**\n   * Null return means it failed\n   */\n  readonly provisionHost: SimpleProvision_provisionHost | null;\n};\n\nexport type SimpleProvisionVariables = {\n  input: ProvisionHostInput;\n};\n\ndeclare const graphqlDocument: MutationDocumentNode<SimpleProvision, SimpleProvisionVariables>;\nexport default graphqlDocument;")]
  code := 0
  output := []

/-- tests/fixtures/typescript/variable/compile_query_with_variables. -/
def variable_compile_query_with_variables : Fixture where
  args := { rootDir := some (.ofString "/tmp/qlc"), numThreads := some 2, noColor := true }
  files := [
    ("/tmp/qlc/simple_with_variables_query.graphql", "query SimpleGetNetwork($networkId: ID!) {\n  network(id: $networkId) {\n    id\n    cidr\n  }\n}\n")]
  docs := [
    ("query SimpleGetNetwork($networkId: ID!) {\n  network(id: $networkId) {\n    id\n    cidr\n  }\n}\n", .ok [.operation .query ⟨1, 1⟩ (some "SimpleGetNetwork") [⟨⟨1, 24⟩, "networkId", (.nonNull (.named "ID")), none⟩] [] [.field ⟨2, 3⟩ none "network" [("id", (.var "networkId"))] [] [.field ⟨3, 5⟩ none "id" [] [] [], .field ⟨4, 5⟩ none "cidr" [] [] []]]])]
  tree := .dir (.ofString "/tmp/qlc") [.file (.ofString "/tmp/qlc/simple_with_variables_query.graphql")]
  expected := [
    ("/tmp/qlc/simple_with_variables_query.graphql.d.ts", "/* eslint-disable */\n// This file was automatically generated and should not be edited.\n\nimport type { QueryDocumentNode } from \"@notarize/qlc-cli/typed-documentnode\";\n\nexport type SimpleGetNetwork_network = {\n  readonly cidr: string;\n  readonly id: string;\n};\n\nexport type SimpleGetNetwork = {\n  readonly network: SimpleGetNetwork_network | null;\n};\n\nexport type SimpleGetNetworkVariables = {\n  networkId: string;\n};\n\ndeclare const graphqlDocument: QueryDocumentNode<SimpleGetNetwork, SimpleGetNetworkVariables>;\nexport default graphqlDocument;")]
  code := 0
  output := []

/-- tests/fixtures/cli/compile_with_importing_query_instead_of_fragment. -/
def compile_with_importing_query_instead_of_fragment : Fixture where
  args := { rootDir := some (.ofString "/tmp/qlc"), numThreads := some 2, noColor := true }
  files := [
    ("/tmp/qlc/imported_query.graphql", "query ImportedQuery {\n  operator {\n    id\n  }\n}\n"),
    ("/tmp/qlc/main_query.graphql", "#import \"./imported_query.graphql\"\n\nquery MainQueryWithBadImport {\n  operator {\n    id\n  }\n}\n")]
  docs := [
    ("query ImportedQuery {\n  operator {\n    id\n  }\n}\n", .ok [.operation .query ⟨1, 1⟩ (some "ImportedQuery") [] [] [.field ⟨2, 3⟩ none "operator" [] [] [.field ⟨3, 5⟩ none "id" [] [] []]]]),
    ("#import \"./imported_query.graphql\"\n\nquery MainQueryWithBadImport {\n  operator {\n    id\n  }\n}\n", .ok [.operation .query ⟨3, 1⟩ (some "MainQueryWithBadImport") [] [] [.field ⟨4, 3⟩ none "operator" [] [] [.field ⟨5, 5⟩ none "id" [] [] []]]])]
  tree := .dir (.ofString "/tmp/qlc") [.file (.ofString "/tmp/qlc/imported_query.graphql"), .file (.ofString "/tmp/qlc/main_query.graphql")]
  expected := []
  code := 1
  output := ["= help: This document is not a fragment, and importing it is probably a mistake.", "#import \"./imported_query.graphql\"\n  |         ^", "--> /tmp/qlc/main_query.graphql"]

/-- tests/fixtures/cli/compile_with_missing_fragment. -/
def compile_with_missing_fragment : Fixture where
  args := { rootDir := some (.ofString "/tmp/qlc"), numThreads := some 2, noColor := true }
  files := [
    ("/tmp/qlc/importing_missing_query.graphql", "#import \"./not_here.graphql\"\n\nquery NonExistentFragment {\n  operator {\n    id\n  }\n}\n")]
  docs := [
    ("#import \"./not_here.graphql\"\n\nquery NonExistentFragment {\n  operator {\n    id\n  }\n}\n", .ok [.operation .query ⟨3, 1⟩ (some "NonExistentFragment") [] [] [.field ⟨4, 3⟩ none "operator" [] [] [.field ⟨5, 5⟩ none "id" [] [] []]]])]
  tree := .dir (.ofString "/tmp/qlc") [.file (.ofString "/tmp/qlc/importing_missing_query.graphql")]
  expected := []
  code := 1
  output := ["error: could not read `/tmp/qlc/not_here.graphql`: No such file or directory (os error 2)", "#import \"./not_here.graphql\"\n  |         ^", "--> /tmp/qlc/importing_missing_query.graphql"]

/-- tests/fixtures/cli/run_with_unparseable_graphql. -/
def run_with_unparseable_graphql : Fixture where
  args := { rootDir := some (.ofString "/tmp/qlc"), numThreads := some 2, noColor := true }
  files := [
    ("/tmp/qlc/unparseable.graphql", "# Syntax error:\nquery Unparsable {{\n  operator {\n    id\n  }\n}\n")]
  docs := [
    ("# Syntax error:\nquery Unparsable {{\n  operator {\n    id\n  }\n}\n", .error "Parse error at 2:19")]
  tree := .dir (.ofString "/tmp/qlc") [.file (.ofString "/tmp/qlc/unparseable.graphql")]
  expected := []
  code := 1
  output := ["Parse error at 2:19", "--> /tmp/qlc/unparseable.graphql"]

/-- tests/fixtures/cli/compile_with_use_show_deprecation_warnings. -/
def compile_with_use_show_deprecation_warnings : Fixture where
  args := { rootDir := some (.ofString "/tmp/qlc"), numThreads := some 2, noColor := true, showDeprecationWarnings := true }
  files := [
    ("/tmp/qlc/with_deprecated_query.graphql", "query WithDeprecatedFields {\n  operator {\n    id\n    publicRSAKey\n  }\n}\n")]
  docs := [
    ("query WithDeprecatedFields {\n  operator {\n    id\n    publicRSAKey\n  }\n}\n", .ok [.operation .query ⟨1, 1⟩ (some "WithDeprecatedFields") [] [] [.field ⟨2, 3⟩ none "operator" [] [] [.field ⟨3, 5⟩ none "id" [] [] [], .field ⟨4, 5⟩ none "publicRSAKey" [] [] []]]])]
  tree := .dir (.ofString "/tmp/qlc") [.file (.ofString "/tmp/qlc/with_deprecated_query.graphql")]
  expected := []
  code := 0
  output := ["warning: use of deprecated field `publicRSAKey` on type `User`", "4 |     publicRSAKey\n  |     ^"]

/-- tests/fixtures/schema/compile_with_non_schema_matching_graphql. -/
def compile_with_non_schema_matching_graphql : Fixture where
  args := { rootDir := some (.ofString "/tmp/qlc"), numThreads := some 2, noColor := true }
  files := [
    ("/tmp/qlc/bad_schema_query.graphql", "query GarbageSchmea {\n  doesNotExist\n  alsoIsNot: nonExistent\n}\n")]
  docs := [
    ("query GarbageSchmea {\n  doesNotExist\n  alsoIsNot: nonExistent\n}\n", .ok [.operation .query ⟨1, 1⟩ (some "GarbageSchmea") [] [] [.field ⟨2, 3⟩ none "doesNotExist" [] [] [], .field ⟨3, 3⟩ (some "alsoIsNot") "nonExistent" [] [] []]])]
  tree := .dir (.ofString "/tmp/qlc") [.file (.ofString "/tmp/qlc/bad_schema_query.graphql")]
  expected := []
  code := 1
  output := ["= help: Check the fields of `Query`.", "2 |   doesNotExist\n  |   ^", "3 |   alsoIsNot: nonExistent\n  |   ^", "--> /tmp/qlc/bad_schema_query.graphql:3:3", "--> /tmp/qlc/bad_schema_query.graphql:2:3"]

/-- tests/fixtures/cli/compile_with_narrowing. -/
def compile_with_narrowing : Fixture where
  args := { rootDir := some (.ofString "/tmp/qlc"), numThreads := some 2, noColor := true }
  files := [
    ("/tmp/qlc/host_fragment.graphql", "fragment SpreadOnHost on Host {\n  id\n}\n"),
    ("/tmp/qlc/narrow_query.graphql", "#import \"./host_fragment.graphql\"\n\nquery Narrowing {\n  operator {\n    id\n    ...SpreadOnHost\n    ... on Network {\n      id\n      cidr\n    }\n  }\n}\n")]
  docs := [
    ("fragment SpreadOnHost on Host {\n  id\n}\n", .ok [.fragment ⟨⟨1, 1⟩, "SpreadOnHost", "Host", [], [.field ⟨2, 3⟩ none "id" [] [] []]⟩]),
    ("#import \"./host_fragment.graphql\"\n\nquery Narrowing {\n  operator {\n    id\n    ...SpreadOnHost\n    ... on Network {\n      id\n      cidr\n    }\n  }\n}\n", .ok [.operation .query ⟨3, 1⟩ (some "Narrowing") [] [] [.field ⟨4, 3⟩ none "operator" [] [] [.field ⟨5, 5⟩ none "id" [] [] [], .spread ⟨6, 8⟩ "SpreadOnHost" [], .inline ⟨7, 9⟩ (some "Network") [] [.field ⟨8, 7⟩ none "id" [] [] [], .field ⟨9, 7⟩ none "cidr" [] [] []]]]])]
  tree := .dir (.ofString "/tmp/qlc") [.file (.ofString "/tmp/qlc/host_fragment.graphql"), .file (.ofString "/tmp/qlc/narrow_query.graphql")]
  expected := []
  code := 0
  output := ["= help: The parent types of this spread are limited to `User`, making spreading `Host` extraneous.", "6 |     ...SpreadOnHost\n  |        ^", "--> /tmp/qlc/narrow_query.graphql:6:8", "= help: The parent types of this spread are limited to `User`, making spreading `Network` extraneous.", "7 |     ... on Network {\n  |         ^", "--> /tmp/qlc/narrow_query.graphql:7:9"]

/-- All of them. -/
def all : List Fixture := [
  compile_simple_query,
  compile_simple_subscription,
  compile_simple_mutation,
  compile_simple_fragment,
  compile_typename,
  compile_with_all_module_config,
  complex_compile_deep_fragments,
  complex_compile_absolute_import_fragments,
  complex_union_compile_union_with_abstract_and_concrete_types,
  complex_union_compile_union_with_abstract_only,
  complex_union_compile_union_with_concrete_only,
  complex_union_compile_union_with_fragments,
  complex_union_compile_union_with_typenames,
  complex_interface_compile_interface_abstract_only,
  complex_interface_compile_interface_both_concrete_and_abstract,
  complex_interface_compile_interface_concrete_only,
  complex_interface_compile_interface_with_typename,
  enumeration_compile_with_global_types,
  field_compile_custom_scalar_any,
  field_compile_custom_scalar_with_default_names,
  field_compile_custom_scalar_with_prefixed_names,
  field_compile_fields_with_recursive_list_types,
  field_compile_fields_with_deprecation_marker,
  field_compile_fields_without_readonly_marker,
  variable_compile_mutation_with_inputs_including_lists,
  variable_compile_mutation_with_variables,
  variable_compile_query_with_variables,
  compile_with_importing_query_instead_of_fragment,
  compile_with_missing_fragment,
  run_with_unparseable_graphql,
  compile_with_use_show_deprecation_warnings,
  compile_with_non_schema_matching_graphql,
  compile_with_narrowing]

end Qlc.Conformance
